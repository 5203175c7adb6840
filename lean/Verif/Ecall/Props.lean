import Verif.Ecall.Handle
import Verif.Guard.ShapeCheck
import Verif.Cg.Examples
/-!
# C48: the pass for heap ecalls
-/
namespace Verif.Ecall
open Verif Verif.IR Verif.Edit Verif.Guard

/-- What the pass expects: a function in good shape whose reachable blocks `R` are listed once, with an ecall `e` whose arguments are the map `m` and a
constant, and whose result nobody uses; arithmetic has two operands, and its operands are found within `k` levels. -/
structure Fit (f : Fn) (R : List Nat) (e m k : Nat) : Prop where
  shape : Shape f
  users : UsersListed f
  nodup : R.Nodup
  blocks : ∀ b ∈ R, b ∈ f.allBbs
  inBody : InBody f e
  op : (f.insn e).op = .ecall
  vals : ∃ a w bt, (f.insn e).vals = [.insn m, .const .plain a w bt]
  unused : ∀ x, Live f x → refs (f.insn x) e = 0
  two : ∀ x, Live f x → (f.insn x).op.binAlu = true → ∃ v w, (f.insn x).vals = [v, w]
  depth : ∃ rk : Nat → Nat, (∀ x y, Live f x → (f.insn x).op.binAlu = true → .insn y ∈ (f.insn x).vals → rk y < rk x) ∧ ∀ x, Live f x → rk x + 1 < k

theorem Fit.map {f : Fn} {R : List Nat} {e m k : Nat} (h : Fit f R e m k) : Live f m := by
  obtain ⟨a, w, bt, hv⟩ := h.vals
  exact h.shape.tidy.closed e m (.inr (.inr h.inBody)) (refs_pos.2 (by unfold operands; rw [hv]; simp))

theorem Fit.seen {f : Fn} {R : List Nat} {e m k : Nat} (h : Fit f R e m k) : Seen f k := by
  obtain ⟨rk, h1, h2⟩ := h.depth
  intro y hy
  have := h2 y hy
  exact isNonptr_ok h.shape.tidy h.two h1 k (.insn y) hy (by omega) (fun x e1 => by cases e1; exact this)

theorem Fit.redirected {f : Fn} {R : List Nat} {e m k : Nat} (h : Fit f R e m k) : ∃ g pre, translateHeap k R f e = .ok g ∧ Redirected f R e m g pre ∧
    ∀ x, InBody g x → InBody f x ∧ x ≠ e ∨ (g.insn x).op ≠ .ecall := by
  obtain ⟨a, w, bt, hv⟩ := h.vals
  exact Ecall.redirected h.shape h.users h.inBody h.op hv h.unused h.nodup h.blocks h.seen

/-- C48 (partial): the pass succeeds; loads and stores whose base is calculated from loaded values by arithmetic are redirected to the map, and nothing else
is changed.  Missing: a loaded value can be a pointer (`C48_pointer_violated`). -/
theorem C48_exact_partial {f : Fn} {R : List Nat} {e m k : Nat} (h : Fit f R e m k) : ∃ g pre, translateHeap k R f e = .ok g ∧ Redirected f R e m g pre := by
  obtain ⟨g, pre, h1, h2, _⟩ := h.redirected
  exact ⟨g, pre, h1, h2⟩

theorem not_ecall {f : Fn} {R : List Nat} {e m k x : Nat} (h : Fit f R e m k) (hx : Heap f x) : x ≠ e := by
  rintro rfl
  rcases hx.1 with h1 | h1 <;> rw [h.op] at h1 <;> cases h1

/-- C48: whenever an execution gets to a redirected load, its address has just been looked up in the map, the result is not null, and the load reads there. -/
theorem C48_guarded {f g : Fn} {R : List Nat} {e m k : Nat} (h : Fit f R e m k) (hg : translateHeap k R f e = .ok g) {b x : Nat} (hb : b ∈ R)
    (hx : x ∈ f.body b) (hh : Heap f x) (hop : (f.insn x).op = .loadraw) :
    ∃ c, g.insn x = { f.insn x with addr := .insn c, addrOff := 0 } ∧ ∀ (W : World) (σ τ : St), Reaches W g σ x τ → LookedUp W f m c x τ := by
  obtain ⟨g', pre, h1, h2, _⟩ := h.redirected
  rw [hg] at h1
  cases h1
  obtain ⟨c, hc⟩ := h2.load b hb x hx hh hop
  refine ⟨c, ?_, fun W σ τ hr => looked h.shape.tidy h.map h2 (h.blocks b hb) hx (not_ecall h hh) hh hc hr⟩
  obtain ⟨_, _, _, _, _, _, _, _, _, _, _, _, _, _, _, h3⟩ := hc
  exact h3

/-- A redirected store goes to the sum of the map pointer and the address, whatever they are. -/
theorem C48_store {f g : Fn} {R : List Nat} {e m k : Nat} (h : Fit f R e m k) (hg : translateHeap k R f e = .ok g) {b x : Nat} (hb : b ∈ R)
    (hx : x ∈ f.body b) (hh : Heap f x) (hop : (f.insn x).op = .storeraw) (W : World) (σ τ : St) (hr : Reaches W g σ x τ) :
    ∃ A, eval τ (f.insn x).addr = some A ∧ eval τ (g.insn x).addr = some (τ.env m + A) := by
  obtain ⟨g', pre, h1, h2, _⟩ := h.redirected
  rw [hg] at h1
  cases h1
  exact stored h.shape.tidy h.map h2 (h.blocks b hb) hx (not_ecall h hh) hh (h2.store b hb x hx hh hop) hr

/-- Without heap ecalls the function stays as it is. -/
theorem C48_none {k : Nat} {R : List Nat} {f : Fn} (h : ∀ b ∈ R, ∀ x ∈ f.body b, (f.insn x).op = .ecall → (f.insn x).aux ≠ 0) :
    handleEcalls k R f = .ok f := handleAll_none h

/-- With one heap ecall, which has neither a load to redirect in front of it in its block nor directly behind it, the pass does the above. -/
theorem C48_handled_partial {f : Fn} {R : List Nat} {e m k : Nat} (h : Fit f R e m k) (h0 : (f.insn e).aux = 0)
    (hone : ∀ x, InBody f x → (f.insn x).op = .ecall → x = e) {b : Nat} (hb : b ∈ R) {A B : List Nat} (hbd : f.body b = A ++ e :: B)
    (hA : ∀ z ∈ A, ¬ (Heap f z ∧ (f.insn z).op = .loadraw)) (hB : ∀ y ∈ B.head?, ¬ (Heap f y ∧ (f.insn y).op = .loadraw)) :
    ∃ g pre, handleEcalls k R f = .ok g ∧ translateHeap k R f e = .ok g ∧ Redirected f R e m g pre := by
  obtain ⟨g, pre, h1, h2, h3⟩ := h.redirected
  exact ⟨g, pre, handle_one h.shape h1 h2 h3 h.nodup h.blocks h.op h0 hone hb hbd hA hB, h1, h2⟩

/-! ## An example -/

/-- The ecall with the map 11. -/
def ecall : Insn := { op := .ecall, vals := [.insn 11, const32 64], aux := 0 }

/-- `r2 = map; ecall(r2, 64); r3 = *(u64 *)r1; r4 = *(u64 *)(r3 + 8); *(u64 *)(r3 + 16) = r4; return r4`. -/
def exF : Fn := Cg.mkFn [([(11, mkLoadimm 1 0x100), (12, ecall), (13, mkLoadraw .t64 (.insn 1) 0 .plain), (14, mkLoadraw .t64 (.insn 13) 8 .plain),
  (15, mkStoreraw .t64 (.insn 13) 16 .plain (.insn 14)), (16, mkRet (.insn 14))], [])]

/-- A test for `Fit`. -/
def fitB (f : Fn) (R : List Nat) (e m k : Nat) (rk : Nat → Nat) : Bool :=
  shapeB f &&
  (liveList f).all (fun y => (liveList f).all (fun x => decide (x ∈ f.users y ↔ 0 < refs (f.insn x) y)) && (f.users y).all fun x => decide (x ∈ liveList f)) &&
  decide R.Nodup && R.all (fun b => decide (b ∈ f.allBbs)) && f.allBbs.any (fun b => decide (e ∈ f.body b)) && decide ((f.insn e).op = .ecall) &&
  (match (f.insn e).vals with | [.insn m', .const .plain _ _ _] => decide (m' = m) | _ => false) &&
  (liveList f).all (fun x => decide (refs (f.insn x) e = 0)) &&
  (liveList f).all (fun x => !(f.insn x).op.binAlu || (match (f.insn x).vals with | [_, _] => true | _ => false)) &&
  (liveList f).all (fun x => !(f.insn x).op.binAlu || (f.insn x).vals.all fun v => match v with | .insn y => decide (rk y < rk x) | _ => true) &&
  (liveList f).all (fun x => decide (rk x + 1 < k))

theorem fit_of_check {f : Fn} {R : List Nat} {e m k : Nat} {rk : Nat → Nat} (h : fitB f R e m k rk = true) : Fit f R e m k := by
  simp only [fitB, Bool.and_eq_true, List.all_eq_true, List.any_eq_true, decide_eq_true_eq] at h
  obtain ⟨⟨⟨⟨⟨⟨⟨⟨⟨⟨h1, h2⟩, h3⟩, h4⟩, h5⟩, h6⟩, h7⟩, h8⟩, h9⟩, h10⟩, h11⟩ := h
  refine ⟨shape_of_check h1, fun y hy => ⟨fun x hx => (h2 y (mem_liveList.2 hy)).1 x (mem_liveList.2 hx), fun x hx =>
    mem_liveList.1 ((h2 y (mem_liveList.2 hy)).2 x hx)⟩, h3, h4, ?_, h6, ?_, fun x hx => h8 x (mem_liveList.2 hx), ?_, rk, ?_, fun x hx => h11 x (mem_liveList.2 hx)⟩
  · obtain ⟨b, hb, hx⟩ := h5
    exact ⟨b, hb, hx⟩
  · split at h7
    · rename_i m' a w bt hv
      have : m' = m := by simpa using h7
      subst this
      exact ⟨a, w, bt, hv⟩
    · cases h7
  · intro x hx hop
    have := h9 x (mem_liveList.2 hx)
    rw [hop] at this
    simp only [Bool.not_true, Bool.false_or] at this
    split at this
    · rename_i v w hv; exact ⟨v, w, hv⟩
    · cases this
  · intro x y hx hop hy
    have := h10 x (mem_liveList.2 hx)
    rw [hop] at this
    simp only [Bool.not_true, Bool.false_or, List.all_eq_true] at this
    simpa using this _ hy

theorem exF_fit : Fit exF [0] 12 11 3 := fit_of_check (rk := fun _ => 0) (by decide +kernel)

theorem exF_heap : Heap exF 14 ∧ Heap exF 15 ∧ ¬ Heap exF 13 := by
  refine ⟨⟨.inl rfl, 13, rfl, .load rfl⟩, ⟨.inr rfl, 13, rfl, .load rfl⟩, ?_⟩
  rintro ⟨_, y, h1, h2⟩
  cases h1
  cases h2 with
  | load h => cases h
  | arith h => cases h

/-- Every byte is 9, the map is at 0x100, the arrays are at 0x2000, and a lookup returns `r`. -/
def exW (r : BitVec 64) : World := ⟨⟨fun _ v => v, fun _ _ _ m => ⟨r, m, fun _ => 0⟩⟩, fun _ => 0x2000, fun _ => 8⟩
def exσ : St := ⟨fun x => if x = 1 then 0x5000 else if x = 10 then 0x1000 else 0, fun _ => 0, fun a => if a = 0x5000 then 3 else if a = 0x7000 then 5 else if 0x5000 < a ∧ a < 0x5008 ∨ 0x7000 < a ∧ a < 0x7008 then 0 else 9, []⟩

/-- What a function returns within `n` steps, and the byte at `a` then; `none` is a throw. -/
def outcome (W : World) (f : Out Fn) (n : Nat) (a : BitVec 64) : Option (Option (BitVec 64 × BitVec 8)) :=
  match f with
  | .ok g => match runFn W g n exσ with
    | .done v τ => some (some (v, τ.mem a))
    | .thrown _ => some none
    | _ => none
  | _ => none

/-- The theorems on this function: the load at 3 + 8 reads what the lookup points to, and the store goes to 0x100 + 3 + 16; if the lookup returns null, the
function throws. -/
example : Fit exF [0] 12 11 3 ∧ (∃ g, handleEcalls 3 [0] exF = .ok g ∧ translateHeap 3 [0] exF 12 = .ok g) ∧
    outcome (exW 0x7000) (handleEcalls 3 [0] exF) 20 0x113 = some (some (5, 5)) ∧ outcome (exW 0) (handleEcalls 3 [0] exF) 20 0x113 = some none := by
  refine ⟨exF_fit, ?_, by decide +kernel, by decide +kernel⟩
  obtain ⟨g, pre, h1, h2, _⟩ := C48_handled_partial exF_fit rfl (by
    rintro x ⟨b, hb, hx⟩ h
    have hb' : b = 0 := by simpa [exF, Cg.mkFn] using hb
    subst hb'
    simp [exF, Cg.mkFn] at hx
    rcases hx with rfl | rfl | rfl | rfl | rfl | rfl <;> first | rfl | cases h) (b := 0) (by simp) (A := [11]) (B := [13, 14, 15, 16]) rfl
    (by rintro z hz ⟨_, h⟩; rw [List.mem_singleton.1 hz] at h; cases h) (by rintro y hy ⟨h, _⟩; cases hy; exact exF_heap.2.2 h)
  exact ⟨g, h1, h2⟩

/-! ## A pointer that has been on the stack -/

/-- `r2 = map; ecall(r2, 64); *(u64 *)(r10 - 8) = r1; r3 = *(u64 *)(r10 - 8); return *(u64 *)r3`: the pointer `r1` is kept on the stack. -/
def ptrF : Fn := Cg.mkFn [([(11, mkLoadimm 1 0x100), (12, ecall), (13, mkStoreraw .t64 (.insn 10) (-8) .rawoff (.insn 1)),
  (14, mkLoadraw .t64 (.insn 10) (-8) .rawoff), (15, mkLoadraw .t64 (.insn 14) 0 .plain), (16, mkRet (.insn 15))], [])]

/-- It is taken for a number: the load through the pointer becomes a lookup of the pointer in the map, and with an empty map the function throws instead of
reading 3 from where `r1` points to. -/
theorem C48_pointer_violated : Fit ptrF [0] 12 11 3 ∧ Heap ptrF 15 ∧ outcome (exW 0) (erase ptrF 12) 20 0 = some (some (3, 9)) ∧
    outcome (exW 0) (handleEcalls 3 [0] ptrF) 20 0 = some none :=
  ⟨fit_of_check (rk := fun _ => 0) (by decide +kernel), ⟨.inl rfl, 14, rfl, .load rfl⟩, by decide +kernel, by decide +kernel⟩

/-! ## A load directly behind the ecall -/

/-- `r2 = map; r3 = *(u64 *)r1; ecall(r2, 64); return *(u64 *)r3`. -/
def nextF : Fn := Cg.mkFn [([(11, mkLoadimm 1 0x100), (13, mkLoadraw .t64 (.insn 1) 0 .plain), (12, ecall), (14, mkLoadraw .t64 (.insn 13) 0 .plain),
  (15, mkRet (.insn 14))], [])]

theorem is_ub {α : Type} {o : Out α} (h : (o matches .ub) = true) : o = .ub := by cases o <;> simp_all

/-- The load moves to a new block, and the loop over the old block runs on in the list of the new one. -/
theorem C48_walk_violated : Fit nextF [0] 12 11 3 ∧ (translateHeap 3 [0] nextF 12).isOk ∧ handleEcalls 3 [0] nextF = .ub :=
  ⟨fit_of_check (rk := fun _ => 0) (by decide +kernel), by decide +kernel, is_ub (by decide +kernel)⟩

/-! ## Phis behind the new block -/

/-- `r2 = map; ecall(r2, 64); r3 = *(u64 *)r1; r4 = *(u64 *)r3; if (r4 == 5) r4 = 6; return r4`. -/
def phiF : Fn := Cg.mkFn [
  ([(11, mkLoadimm 1 0x100), (12, ecall), (13, mkLoadraw .t64 (.insn 1) 0 .plain), (14, mkLoadraw .t64 (.insn 13) 0 .plain),
    (15, mkJbin .jeq .w64 (.insn 14) (const64 5) 2 1)], [1, 2]),
  ([(16, mkJa 2)], [2]),
  ([(17, { op := .phi, phi := [(0, .insn 14), (1, const64 6)] }), (18, mkRet (.insn 17))], [])]

/-- The function has no next step within `n` steps. -/
def stuck (W : World) (f : Out Fn) (n : Nat) : Bool :=
  match f with
  | .ok g => match runFn W g n exσ with
    | .stuck => true
    | _ => false
  | _ => false

/-- The phi names the block 0, but control comes from the new block. -/
theorem C48_phi_violated : Fit phiF [0, 1, 2] 12 11 3 ∧ outcome (exW 0x5000) (erase phiF 12) 30 0 = some (some (0x0909090909090909, 9)) ∧
    stuck (exW 0x5000) (handleEcalls 3 [0, 1, 2] phiF) 30 = true := by
  refine ⟨fit_of_check (rk := fun _ => 0) (by decide +kernel), by decide +kernel, by decide +kernel⟩

end Verif.Ecall
