import Verif.Cg.FrontProps
import Verif.Stack.Places
import Verif.Compile.Model
/-!
# The form of the instructions during code generation
-/
namespace Verif.Compile
open Verif Verif.IR Verif.Edit Verif.Cg
open Verif.RemPhi (All2)
open Verif.Loc (phisOf_append phisOf_phi)
open Verif.Norm (VrPos Reg Op)

/-- An instruction that code generation can handle, where `op` are the operations of the operands: throws have been translated; variables are loaded and stored, arrays are the
base of an address; the stack pointer is used in the forms that `add_stack_offset` knows (`Stack.Form`). -/
structure InsnOk (op : Nat → Op) (sp : Nat) (d : BitVec 16) (i : Insn) : Prop where
  noThrow : i.op ≠ .throw
  var : ∀ y, .insn y ∈ operands i → op y = .alloc → (i.op = .load ∨ i.op = .store) ∧ ∃ r, i.vals = .insn y :: r ∧ .insn y ∉ r
  arr : ∀ y, .insn y ∈ operands i → op y = .allocarray → i.op = .getelemptr ∧ ∃ v, i.vals = [v, .insn y] ∧ v ≠ .insn y
  gep : i.op = .getelemptr → ∀ v w, i.vals = [v, w] → ∃ y, w = .insn y
  addr : raw i.op = true → ∀ k c t u, i.addr = .const k c t u → k = .plain
  noAddr : raw i.op = false → ∀ y, i.addr ≠ .insn y
  form : Stack.Form sp d .rawoff i

/-- Not a variable, an array or the stack pointer. -/
def PlainVal (op : Nat → Op) (sp : Nat) (n : Nat) : Prop := op n ≠ .alloc ∧ op n ≠ .allocarray ∧ n ≠ sp

/-- An operand is replaced. -/
inductive VRel (op : Nat → Op) (sp : Nat) (o : Op) : Val → Val → Prop
  | same (v : Val) : VRel op sp o v v
  | insn (y n : Nat) : PlainVal op sp y → PlainVal op sp n → VRel op sp o (.insn y) (.insn n)
  | const (k : Norm.CKind) (c : BitVec 64) (t : Norm.AluTy) (b : Norm.Builtin) (n : Nat) : o ≠ .add → PlainVal op sp n → VRel op sp o (.const k c t b) (.insn n)

/-- Operands of an instruction are replaced. -/
structure Subst (op : Nat → Op) (sp : Nat) (i j : Insn) : Prop where
  opEq : j.op = i.op
  aluOp : j.aluOp = i.aluOp
  addrOff : j.addrOff = i.addrOff
  addrKind : j.addrKind = i.addrKind
  vals : All2 (VRel op sp i.op) i.vals j.vals
  phi : All2 (fun o o' => VRel op sp i.op o.2 o'.2) i.phi j.phi
  addr : VRel op sp i.op i.addr j.addr
  noAddr : raw i.op = false → j.addr = i.addr

variable {op : Nat → Op} {sp : Nat} {d : BitVec 16} {i j : Insn}

theorem VRel.back {o : Op} {v w : Val} (h : VRel op sp o v w) : w = v ∨ ∃ n, w = .insn n ∧ PlainVal op sp n := by
  cases h with
  | same => exact .inl rfl
  | insn y n _ hn => exact .inr ⟨n, rfl, hn⟩
  | const k c t b n _ hn => exact .inr ⟨n, rfl, hn⟩

/-- A special operand is not replaced. -/
theorem VRel.special {o : Op} {y : Nat} {w : Val} (h : VRel op sp o (.insn y) w) (hy : ¬ PlainVal op sp y) : w = .insn y := by
  cases h with
  | same => rfl
  | insn _ n h1 _ => exact absurd h1 hy

theorem Subst.mem (h : Subst op sp i j) {w : Val} (hw : w ∈ operands j) : w ∈ operands i ∨ ∃ n, w = .insn n ∧ PlainVal op sp n := by
  unfold operands at hw ⊢
  rw [h.opEq] at hw
  simp only [List.mem_append] at hw ⊢
  rcases hw with (hw | hw) | hw
  · obtain ⟨v, hv, hr⟩ := all2_right h.vals hw
    rcases hr.back with rfl | hr
    · exact .inl (.inl (.inl hv))
    · exact .inr hr
  · split at hw
    · rename_i hp
      obtain ⟨o', ho', rfl⟩ := List.mem_map.1 hw
      obtain ⟨o, ho, hr⟩ := all2_right h.phi ho'
      rcases hr.back with e | hr
      · refine .inl (.inl (.inr ?_))
        rw [if_pos hp, e]
        exact List.mem_map.2 ⟨o, ho, rfl⟩
      · exact .inr hr
    · cases hw
  · split at hw
    · rename_i hp
      rw [List.mem_singleton.1 hw]
      rcases h.addr.back with e | hr
      · left; right; rw [if_pos hp, e]; exact List.mem_singleton.2 rfl
      · exact .inr hr
    · cases hw

theorem Subst.memV (h : Subst op sp i j) {w : Val} (hw : w ∈ j.vals) : w ∈ i.vals ∨ ∃ n, w = .insn n ∧ PlainVal op sp n := by
  obtain ⟨v, hv, hr⟩ := all2_right h.vals hw
  rcases hr.back with rfl | hr
  · exact .inl hv
  · exact .inr hr

theorem Subst.memS (h : Subst op sp i j) {y : Nat} (hy : ¬ PlainVal op sp y) (hw : .insn y ∈ operands j) : .insn y ∈ operands i := by
  rcases h.mem hw with h1 | ⟨n, e, hn⟩
  · exact h1
  · cases e; exact absurd hn hy

theorem all2_cons_inv {α β : Type} {P : α → β → Prop} {a : α} {l : List α} {m : List β} (h : All2 P (a :: l) m) : ∃ b m', m = b :: m' ∧ P a b ∧ All2 P l m' := by
  cases h with | cons h t => exact ⟨_, _, rfl, h, t⟩

theorem all2_nil_inv {α β : Type} {P : α → β → Prop} {m : List β} (h : All2 P [] m) : m = [] := by cases h; rfl

theorem InsnOk.subst (hi : InsnOk op sp d i) (h : Subst op sp i j) : InsnOk op sp d j := by
  have nsp : ¬ PlainVal op sp sp := fun h => h.2.2 rfl
  have tail : ∀ {l m : List Val} {y : Nat}, ¬ PlainVal op sp y → All2 (VRel op sp i.op) l m → .insn y ∈ m → .insn y ∈ l := by
    intro l m y hy ha hm
    obtain ⟨v, hv, hr⟩ := all2_right ha hm
    rcases hr.back with e | ⟨n, e, hn⟩
    · rw [e]; exact hv
    · cases e; exact absurd hn hy
  refine ⟨by rw [h.opEq]; exact hi.noThrow, fun y hy hop => ?_, fun y hy hop => ?_, fun hop v w hv => ?_, fun hr k c t u ha => ?_, fun hr y => ?_, ?_⟩
  · have np : ¬ PlainVal op sp y := fun h => h.1 hop
    obtain ⟨h1, r, h2, h3⟩ := hi.var y (h.memS np hy) hop
    rw [h.opEq]
    refine ⟨h1, ?_⟩
    have hv := h.vals
    rw [h2] at hv
    obtain ⟨b, m', e, hb, ht⟩ := all2_cons_inv hv
    exact ⟨m', by rw [e, hb.special np], fun hm => h3 (tail np ht hm)⟩
  · have np : ¬ PlainVal op sp y := fun h => h.2.1 hop
    obtain ⟨h1, v, h2, h3⟩ := hi.arr y (h.memS np hy) hop
    rw [h.opEq]
    refine ⟨h1, ?_⟩
    have hv := h.vals
    rw [h2] at hv
    obtain ⟨b, m', e, hb, ht⟩ := all2_cons_inv hv
    obtain ⟨c, m2, e2, hc, ht2⟩ := all2_cons_inv ht
    refine ⟨b, by rw [e, e2, hc.special np, all2_nil_inv ht2], fun eb => ?_⟩
    rcases hb.back with e3 | ⟨n, e3, hn⟩
    · exact h3 (by rw [← e3]; exact eb)
    · rw [eb] at e3; cases e3; exact np hn
  · rw [h.opEq] at hop
    have hvs := h.vals
    rw [hv] at hvs
    generalize hl : i.vals = l at hvs
    cases hvs with | @cons a _ l1 _ p1 t =>
    cases t with | @cons b _ l2 _ p2 t2 =>
    cases t2
    obtain ⟨y, e⟩ := hi.gep hop a b hl
    rw [e] at p2
    cases p2 with
    | same => exact ⟨y, rfl⟩
    | insn _ n _ _ => exact ⟨n, rfl⟩
  · rw [h.opEq] at hr
    rcases h.addr.back with e | ⟨n, e, -⟩
    · exact hi.addr hr k c t u (by rw [← e]; exact ha)
    · rw [e] at ha; cases ha
  · rw [h.opEq] at hr
    rw [h.noAddr hr]
    exact hi.noAddr hr y
  · cases hi.form with
    | other h1 h2 =>
      refine .other ?_ ⟨fun v hv k c ct b e => ?_, fun hr => by rw [h.addrKind]; exact h2.2 (by rw [← h.opEq]; exact hr)⟩
      · refine Nat.eq_zero_of_not_pos fun hp => ?_
        have := refs_pos.2 (h.memS nsp (refs_pos.1 hp))
        omega
      · rcases h.mem hv with h3 | ⟨n, e2, -⟩
        · exact h2.1 v h3 k c ct b e
        · rw [e] at e2; cases e2
    | access h1 h2 h3 h4 h5 h6 =>
      refine .access (by rw [h.opEq]; exact h1) ?_ (by rw [h.addrKind]; exact h3) (fun v hv e => ?_) (by rw [h.addrOff]; exact h5) (by rw [h.addrOff]; exact h6)
      · have ha := h.addr
        rw [h2] at ha
        exact ha.special nsp
      · rw [e] at hv
        exact h4 _ (tail nsp h.vals hv) rfl
    | add c ct b h1 h2 h3 =>
      have hv := h.vals
      rw [h3] at hv
      obtain ⟨x, m', e, hx, ht⟩ := all2_cons_inv hv
      obtain ⟨y, m2, e2, hy, ht2⟩ := all2_cons_inv ht
      refine .add c ct b (by rw [h.opEq]; exact h1) (by rw [h.aluOp]; exact h2) ?_
      rw [e, e2, hx.special nsp, all2_nil_inv ht2]
      cases hy with
      | same => rfl
      | const _ _ _ _ n ho _ => exact absurd h1 ho

theorem all2_map {α β : Type} {P : α → β → Prop} {g : α → β} : ∀ (l : List α), (∀ a ∈ l, P a (g a)) → All2 P l (l.map g)
  | [], _ => .nil
  | a :: l, h => .cons (h a List.mem_cons_self) (all2_map l fun b hb => h b (List.mem_cons_of_mem _ hb))

/-- A renaming of all operands. -/
theorem subst_mapOps {g : Val → Val} (h : ∀ v ∈ operands i, VRel op sp i.op v (g v)) : Subst op sp i (mapOps g i) := by
  refine ⟨rfl, rfl, rfl, rfl, all2_map _ fun v hv => h v (by unfold operands; simp [hv]), ?_, ?_, fun hr => ?_⟩
  · unfold mapOps
    dsimp only
    split
    · rename_i hp
      refine all2_map _ fun o ho => h _ ?_
      unfold operands
      rw [if_pos hp]
      exact List.mem_append_left _ (List.mem_append_right _ (List.mem_map.2 ⟨o, ho, rfl⟩))
    · exact all2_refl (fun _ => .same _) _
  · unfold mapOps
    dsimp only
    split
    · rename_i hp
      refine h _ ?_
      unfold operands
      rw [if_pos hp]
      simp
    · exact .same _
  · unfold mapOps
    dsimp only
    rw [hr]
    rfl

/-! ## Functions -/

/-- The instruction is in one of the blocks `R`. -/
def InR (f : Fn) (R : List Nat) (x : Nat) : Prop := ∃ b ∈ R, x ∈ f.body b

/-- The operations of the instructions. -/
def ops (f : Fn) : Nat → Op := fun y => (f.insn y).op

/-- What an operand can be after lowering. -/
def Dom (f : Fn) (R : List Nat) (rg : Nat → Nat) (y : Nat) : Prop := y = f.sp ∨ (∃ i, i < 10 ∧ y = rg i) ∨ (InR f R y ∧ Loc.hasResult (ops f y) = true)

/-- All instructions of the blocks `R` are in the form that code generation can handle, and their operands are the stack pointer, machine registers, and instructions of the
blocks that have a result; phis name blocks of `R`. -/
structure Shape (f : Fn) (R : List Nat) (rg : Nat → Nat) (d : BitVec 16) : Prop where
  insn : ∀ x, InR f R x → InsnOk (ops f) f.sp d (f.insn x)
  dom : ∀ x, InR f R x → ∀ y, .insn y ∈ operands (f.insn x) → Dom f R rg y
  labels : ∀ x, InR f R x → (f.insn x).op = .phi → ∀ o ∈ (f.insn x).phi, o.1 ∈ R

/-- The variables that satisfy `A` are allocated at the entry, before they are used. -/
def Early (f : Fn) (R : List Nat) (A : Nat → Prop) : Prop := ∀ a, InR f R a → (f.insn a).op = .alloc → A a →
  ∃ pre rest, f.body f.entry = pre ++ a :: rest ∧ ∀ x ∈ pre, refs (f.insn x) a = 0

/-- Positions during code generation: the machine registers and the stack pointer have theirs, and nothing else is in r10; slots are below the frame pointer and do not
overlap; only variables and arrays are on the stack, and all arrays are. -/
structure PosInv (s : Cg) (R : List Nat) (rg : Nat → Nat) (off : Int) : Prop where
  rg : ∀ i, i < 10 → s.pos (rg i) = ⟨true, Fin.ofNat 11 i, 0⟩
  sp : s.pos s.f.sp = ⟨true, 10, 0⟩
  free : ∀ x, (s.pos x).allocated = false → (s.pos x).spilled = 0
  r10 : ∀ x, (s.pos x).allocated = true → (s.pos x).spilled = 0 → (s.pos x).reg = 10 → x = s.f.sp
  neg : ∀ x, (s.pos x).spilled ≠ 0 → off ≤ (s.pos x).spilled ∧ (s.pos x).spilled < 0
  stack : ∀ x, (s.pos x).spilled ≠ 0 → InBody s.f x ∧ (ops s.f x = .alloc ∨ ops s.f x = .allocarray)
  apart : ∀ x y, x ≠ y → (s.pos x).spilled ≠ 0 → (s.pos y).spilled ≠ 0 → (s.pos x).spilled + 8 ≤ (s.pos y).spilled ∨ (s.pos y).spilled + 8 ≤ (s.pos x).spilled

/-- All arrays are on the stack. -/
def ArraysOn (s : Cg) (R : List Nat) : Prop := ∀ x, InR s.f R x → (s.f.insn x).op = .allocarray → (s.pos x).allocated = true ∧ (s.pos x).spilled ≠ 0

/-- A variable that has a place is on the stack. -/
def VarsOn (s : Cg) (R : List Nat) : Prop := ∀ x, InR s.f R x → (s.f.insn x).op = .alloc → (s.pos x).allocated = true → (s.pos x).spilled ≠ 0

/-- The stack pointer and the machine registers are registers. -/
def Fixed (f : Fn) (rg : Nat → Nat) : Prop := (f.insn f.sp).op = .reg ∧ ∀ i, i < 10 → (f.insn (rg i)).op = .reg

theorem InsnOk.congr {op' : Nat → Op} (h : InsnOk op sp d i) (ho : ∀ y, .insn y ∈ operands i → op' y = op y) : InsnOk op' sp d i :=
  ⟨h.noThrow, fun y hy e => h.var y hy (by rw [← ho y hy]; exact e), fun y hy e => h.arr y hy (by rw [← ho y hy]; exact e), h.gep, h.addr, h.noAddr, h.form⟩

theorem Grown.mem {f g : Fn} {H N M T : Nat → List Nat} (h : Grown f g H N M T) {b x : Nat} (hb : b ∈ f.allBbs) (hx : x ∈ g.body b) :
    x ∈ f.body b ∨ x ∈ H b ∨ x ∈ T b ∨ ∃ y ∈ codeOf f b, x ∈ N y ++ M y := by
  rw [h.body b hb] at hx
  simp only [List.mem_append] at hx
  rcases hx with hx | hx | hx | hx
  · exact .inl (by rw [← phisOf_append f b]; exact List.mem_append_left _ hx)
  · exact .inr (.inl hx)
  · unfold ex at hx
    obtain ⟨y, hy, hx⟩ := List.mem_flatMap.1 hx
    rcases List.mem_append.1 hx with h1 | h1
    · exact .inr (.inr (.inr ⟨y, hy, List.mem_append_left _ h1⟩))
    · rcases List.mem_cons.1 h1 with h1 | h1
      · exact .inl (by rw [← phisOf_append f b, h1]; exact List.mem_append_right _ hy)
      · exact .inr (.inr (.inr ⟨y, hy, List.mem_append_right _ h1⟩))
  · exact .inr (.inr (.inl hx))

/-- What was in the function comes first; what is new is not below `next`. -/
theorem Grown.memN {f g : Fn} {H N M T : Nat → List Nat} (h : Grown f g H N M T) {b x : Nat} (hb : b ∈ f.allBbs) (hx : x ∈ g.body b) :
    x ∈ f.body b ∨ (f.next ≤ x ∧ (x ∈ H b ∨ x ∈ T b ∨ ∃ y ∈ codeOf f b, x ∈ N y ++ M y)) := by
  rcases Grown.mem h hb hx with h1 | h1
  · exact .inl h1
  · refine .inr ⟨?_, h1⟩
    rcases h1 with h1 | h1 | ⟨y, -, h1⟩
    · exact h.newB b x (List.mem_append_left _ h1)
    · exact h.newB b x (List.mem_append_right _ h1)
    · exact h.newI y x h1

theorem early_grown {f g : Fn} {H N M T : Nat → List Nat} {R : List Nat} {A B : Nat → Prop} (h : Grown f g H N M T) (hsub : ∀ b ∈ R, b ∈ f.allBbs) (hent : f.entry ∈ R)
    (he0 : phisOf f f.entry = []) (hE : Early f R A) (hB : ∀ a, InR g R a → (g.insn a).op = .alloc → B a → InR f R a ∧ (f.insn a).op = .alloc ∧ A a)
    (hold : ∀ x ∈ f.body f.entry, ∀ a, InR f R a → (f.insn a).op = .alloc → refs (f.insn x) a = 0 → refs (g.insn x) a = 0)
    (hnew : ∀ x ∈ g.body f.entry, f.next ≤ x → ∀ a, InR f R a → (f.insn a).op = .alloc → A a → refs (g.insn x) a = 0) : Early g R B := by
  intro a ha hop hb
  obtain ⟨h1, h2, h3⟩ := hB a ha hop hb
  obtain ⟨pre, rest, e, hr⟩ := hE a h1 h2 h3
  have hee := hsub _ hent
  have ec : codeOf f f.entry = pre ++ a :: rest := by
    rw [← e]
    conv => rhs; rw [← phisOf_append f f.entry, he0]
    rfl
  have eb := h.body _ hee
  rw [he0, List.nil_append, ec, ex_append] at eb
  have e2 : ex N M (a :: rest) = N a ++ a :: (M a ++ ex N M rest) := by unfold ex; simp
  rw [e2] at eb
  rw [h.entry]
  refine ⟨H f.entry ++ (ex N M pre ++ N a), (M a ++ ex N M rest) ++ T f.entry, by rw [eb]; simp, fun x hx => ?_⟩
  have hxg : x ∈ g.body f.entry := by
    rw [eb]
    simp only [List.mem_append, List.mem_cons] at hx ⊢
    rcases hx with hx | hx | hx
    · exact .inl hx
    · exact .inr (.inl (.inl hx))
    · exact .inr (.inl (.inr (.inl hx)))
  have old : x ∈ pre → refs (g.insn x) a = 0 := fun hx => hold x (by rw [e]; simp [hx]) a h1 h2 (hr x hx)
  simp only [List.mem_append] at hx
  rcases hx with hx | hx | hx
  · exact hnew x hxg (h.newB _ _ (List.mem_append_left _ hx)) a h1 h2 h3
  · unfold ex at hx
    obtain ⟨y, hy, hx⟩ := List.mem_flatMap.1 hx
    rcases List.mem_append.1 hx with hx | hx
    · exact hnew x hxg (h.newI y _ (List.mem_append_left _ hx)) a h1 h2 h3
    · rcases List.mem_cons.1 hx with hx | hx
      · exact old (by rw [hx]; exact hy)
      · exact hnew x hxg (h.newI y _ (List.mem_append_right _ hx)) a h1 h2 h3
  · exact hnew x hxg (h.newI a _ (List.mem_append_left _ hx)) a h1 h2 h3

end Verif.Compile
