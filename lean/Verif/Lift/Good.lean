import Verif.Lift.Users
import Verif.Lift.Props
import Verif.IR.Erase
import Verif.Spec.Ssa
import Verif.Spec.Shape
import Verif.Flatten.EmitProps
/-!
# Lifted functions are in SSA form
-/
namespace Verif.Lift
open Verif Verif.Bpf Verif.IR Verif.GenBB
open Verif.Flatten (lastOf graphOf)
set_option linter.unusedSimpArgs false
set_option linter.unusedVariables false

variable {P : List Slot} {C : List Blk} {g : Gh} {s : LSt}

/-! ## Operands come from the start of the block or from above -/

theorem rdOpds_mem {m : M} {os : List Opd} {vs : List Val} (h : rdOpds m os = some vs) {y : Nat} (hy : .insn y ∈ vs) : ∃ k, m k = some (.insn y) := by
  induction os generalizing vs with
  | nil => cases h; simp at hy
  | cons o os ih =>
    obtain ⟨w, ws, h1, h2, rfl⟩ := rdOpds_cons.1 h
    rcases List.mem_cons.1 hy with e | hy
    · subst e
      cases o with
      | imm i => cases h1
      | reg k => exact ⟨k, h1⟩
    · exact ih h2 hy

theorem Tr1.refs {ins a m xs m1 x y} (h : Tr1 ins a m xs m1) (ha : SoundAct a) (hx : x ∈ xs) (hr : 0 < IR.refs (ins x) y) : xs = [x] ∧ ∃ k, m k = some (.insn y) := by
  cases h with
  | mov => simp at hx
  | @emit i a os d m av vs x' h1 h2 h3 h4 =>
    rw [List.mem_singleton] at hx
    subst hx
    refine ⟨rfl, ?_⟩
    obtain ⟨a1, a2, a3, a4⟩ := ha
    have hs : Sound (ins x) := by
      rw [h3]
      refine ⟨a1, a2, fun z hz => ?_⟩
      cases a with
      | none =>
        exfalso
        simp only [rdAddr] at h1
        cases h1
        have : i.addr = .insn z := hz
        rw [a3] at this; cases this
      | some r => exact a4 rfl
    rw [refs_sound hs, h3] at hr
    rcases List.mem_cons.1 hr with e | hr
    · cases a with
      | none =>
        exfalso
        simp only [rdAddr] at h1
        cases h1
        have : i.addr = .insn y := e.symm
        rw [a3] at this; cases this
      | some r => exact ⟨r, by have : av = .insn y := e.symm; rw [← this]; exact h1⟩
    · exact rdOpds_mem h2 hr

theorem planned_sound {qs : List PreInsn} {as : List Act} (h : Planned C qs as) : ∀ a ∈ as, SoundAct a := by
  induction h with
  | nil => simp
  | cons defd hp _ _ ih =>
    intro a ha
    rcases List.mem_cons.1 ha with rfl | ha
    · exact plan_sound hp
    · exact ih a ha

theorem Tr.refs {ins as m xs m1} (h : Tr ins as m xs m1) (ha : ∀ a ∈ as, SoundAct a) : ∀ {l : List Nat} {x : Nat} {r : List Nat}, xs = l ++ x :: r → ∀ y,
    0 < IR.refs (ins x) y → y ∈ l ∨ ∃ k, m k = some (.insn y) := by
  induction h with
  | nil => intro l x r e; simp at e
  | @cons a as m xs m1 ys m2 h0 h1 ih =>
    intro l x r e y hy
    rcases List.append_eq_append_iff.1 e with ⟨l', e1, e2⟩ | ⟨c', e1, e2⟩
    · -- `x` comes later
      rcases ih (fun a ha' => ha a (by simp [ha'])) e2 y hy with hl | ⟨k, hk⟩
      · exact .inl (by rw [e1]; simp [hl])
      · rcases h0.vals hk with h2 | h2
        · exact .inr h2
        · exact .inl (by rw [e1]; simp [h2])
    · cases c' with
      | nil =>
        rcases ih (l := []) (fun a ha' => ha a (by simp [ha'])) (by simpa using e2.symm) y hy with hl | ⟨k, hk⟩
        · simp at hl
        · rcases h0.vals hk with h2 | h2
          · exact .inr h2
          · exact .inl (by rw [List.append_nil] at e1; rw [← e1]; exact h2)
      | cons z c' =>
        rw [List.cons_append] at e2
        obtain ⟨e3, e4⟩ := List.cons.inj e2
        subst e3
        exact .inr (h0.refs (ha a (by simp)) (by rw [e1]; simp) hy).2

/-! ## How blocks end -/

/-- The instruction is what the jump or exit at slot `p` turns into. -/
inductive EndOf (C : List Blk) (p : Nat) : Instr → Insn → Prop
  | ja {off i} : i.op = .ja → bbAt C (p + off.toInt + 1) = .ok i.bb1 → EndOf C p (.ja off) i
  | cond {w c d src off i} : i.op.condJmp = true → bbAt C (p + 1) = .ok i.bb1 → bbAt C (p + off.toInt + 1) = .ok i.bb2 → EndOf C p (.jcc w c d src off) i
  | ret {i} : i.op = .ret → EndOf C p .exit i

/-- Operations of lifted instructions that do not end a block. -/
def plainOp : Op → Bool
  | .add | .sub | .mul | .div | .or | .and | .lsh | .arsh | .rsh | .mod | .xor | .neg | .htobe | .htole | .loadimm | .loadraw | .storeraw | .call => true
  | _ => false

theorem planI_plain {defd : Nat → Bool} {q : PreInsn} {i : Instr} {j : Insn} {a : Option Nat} {os : List Opd} {d : Option Nat}
    (hc : isCtl i = false) (hsrc : ∀ f, i = .call f → q.slot.src = 0 ∧ f = q.slot.imm) (hp : planI C defd q i = .ok (.emit j a os d)) : plainOp j.op = true := by
  cases i with
  | alu w op dd src =>
    simp only [planI] at hp
    split at hp
    · cases hp
    · rename_i hm
      cases hp
      cases op <;> first | rfl | exact absurd rfl hm
  | neg w dd => simp only [planI] at hp; cases hp; rfl
  | swap be dd wd => simp only [planI] at hp; cases hp; cases be <;> rfl
  | ldimm dd k => simp only [planI] at hp; split at hp <;> cases hp; rfl
  | ldx sx sz dd s off => simp only [planI] at hp; cases hp; rfl
  | st sz dd off imm => simp only [planI] at hp; cases hp; rfl
  | stx sz dd s off => simp only [planI] at hp; cases hp; rfl
  | call fid =>
    simp only [planI] at hp
    obtain ⟨h0, rfl⟩ := hsrc fid rfl
    unfold planCall at hp
    rw [h0] at hp
    simp only [show (0 : BitVec 4) ≠ 1 by decide, show (0 : BitVec 4) ≠ 2 by decide, show (0 : BitVec 4) ≠ 6 by decide, if_false] at hp
    repeat' split at hp
    all_goals first | (cases hp; rfl) | cases hp
  | ja off => exact Bool.noConfusion hc
  | jcc w c dd src off => exact Bool.noConfusion hc
  | exit => exact Bool.noConfusion hc

theorem planI_end {defd : Nat → Bool} {q : PreInsn} {i : Instr} {a : Act} (hc : isCtl i = true) (hp : planI C defd q i = .ok a) :
    ∃ j os, a = .emit j none os none ∧ ∀ j', j'.op = j.op → j'.bb1 = j.bb1 → j'.bb2 = j.bb2 → EndOf C q.pos i j' := by
  cases i with
  | ja off =>
    simp only [planI] at hp
    obtain ⟨t, ht, hp⟩ := Out.bind_eq_ok.1 hp
    cases hp
    exact ⟨_, _, rfl, fun j' h1 h2 h3 => .ja h1 (by rw [h2]; exact ht)⟩
  | jcc w c dd src off =>
    simp only [planI] at hp
    cases hc2 : irCond c with
    | none => rw [hc2] at hp; cases hp
    | some o =>
      rw [hc2] at hp
      dsimp only at hp
      obtain ⟨t1, hb1, hp⟩ := Out.bind_eq_ok.1 hp
      obtain ⟨t2, hb2, hp⟩ := Out.bind_eq_ok.1 hp
      cases hp
      exact ⟨_, _, rfl, fun j' h1 h2 h3 => .cond (by rw [h1]; exact (irCond_spec hc2).1) (by rw [h2]; exact hb1) (by rw [h3]; exact hb2)⟩
  | exit =>
    simp only [planI] at hp
    cases hp
    exact ⟨_, _, rfl, fun j' h1 h2 h3 => .ret h1⟩
  | _ => exact Bool.noConfusion hc

/-- The code of a block: straight-line instructions, then possibly what the last slot turns into. -/
inductive Ending (P : List Slot) (C : List Blk) (stop : Nat) (ins : Nat → Insn) (xs : List Nat) : Prop
  | fall : (∀ x ∈ xs, plainOp (ins x).op = true) → Bpf.flow P (stop - 1) = [(stop : Int)] → Ending P C stop ins xs
  | jump (ys : List Nat) (x : Nat) (sl : Slot) (i : Instr) : xs = ys ++ [x] → (∀ x ∈ ys, plainOp (ins x).op = true) → P[stop - 1]? = some sl → decode sl = some i →
      EndOf C (stop - 1) i (ins x) → Ending P C stop ins xs

theorem Ending.cons {stop : Nat} {ins : Nat → Insn} {xs ys : List Nat} (h : Ending P C stop ins ys) (hx : ∀ x ∈ xs, plainOp (ins x).op = true) : Ending P C stop ins (xs ++ ys) := by
  cases h with
  | fall h1 h2 =>
    refine .fall (fun x hm => ?_) h2
    rcases List.mem_append.1 hm with h | h
    · exact hx x h
    · exact h1 x h
  | jump zs x sl i h1 h2 h3 h4 h5 =>
    refine .jump (xs ++ zs) x sl i (by rw [h1, List.append_assoc]) (fun y hm => ?_) h3 h4 h5
    rcases List.mem_append.1 hm with h | h
    · exact hx y h
    · exact h2 y h

theorem chain_ending (hl : Legal P) {stop : Nat} {ins : Nat → Insn} {pc : Nat} {qs : List PreInsn} (h : Chain P stop pc qs) : ∀ {as m xs m1}, Planned C qs as → Tr ins as m xs m1 → qs ≠ [] →
    (∀ p, pc ≤ p → p + 1 < stop → ¬ isTerminator P p) → Ending P C stop ins xs := by
  induction h with
  | nil => intro as m xs m1 _ _ h; exact absurd rfl h
  | @wide p sl s2 d kk qs h1 h2 h3 h4 h5 ih =>
    intro as m xs m1 hp ht _ hin
    cases hp with
    | cons defd hpl _ hp' =>
      cases ht with
      | @cons a _ _ xs m1 ys _ t0 t1 =>
        have hx : ∀ x ∈ xs, plainOp (ins x).op = true := by
          intro x hx
          rw [plan_decode C defd _ (i := .ldimm d kk) h4] at hpl
          cases t0 with
          | mov => simp at hx
          | emit e1 e2 e3 e4 =>
            rw [List.mem_singleton] at hx; subst hx
            rw [e3]
            have := planI_plain (i := .ldimm d kk) rfl (by simp) hpl
            exact this
        by_cases hq : qs = []
        · subst hq
          cases hp'
          cases t1
          rw [List.append_nil]
          refine .fall hx ?_
          have h5' := h5.nil_eq
          have hz : s2.code = 0 := by
            obtain ⟨s2', h6, h7⟩ := hl.wide p sl d kk h2 h4
            rw [h3] at h6; cases h6; exact h7
          rw [show stop - 1 = p + 1 by omega, flow_get h3, decode_zero hz]
          change [((p + 1 : Nat) : Int) + 1] = _
          simp; omega
        · exact (ih hp' t1 hq fun p' hp' => hin p' (by omega)).cons hx
  | @one p sl i x qs h1 h2 h3 h4 h5 ih =>
    intro as m xs m1 hp ht _ hin
    cases hp with
    | cons defd hpl _ hp' =>
      cases ht with
      | @cons a _ _ xs m1 ys _ t0 t1 =>
        rw [plan_decode C defd _ (i := i) h3] at hpl
        cases hc : isCtl i with
        | false =>
          have hx : ∀ x ∈ xs, plainOp (ins x).op = true := by
            intro x hx
            cases t0 with
            | mov => simp at hx
            | emit e1 e2 e3 e4 =>
              rw [List.mem_singleton] at hx; subst hx
              rw [e3]
              have := planI_plain (q := ⟨sl, false, _, p⟩) hc (fun f e => by subst e; exact decode_call h3) hpl
              exact this
          by_cases hq : qs = []
          · subst hq
            cases hp'
            cases t1
            rw [List.append_nil]
            refine .fall hx ?_
            have h5' := h5.nil_eq
            rw [show stop - 1 = p by omega, flow_get h2, h3, flowI_straight hc]
            simp; omega
          · exact (ih hp' t1 hq fun p' hp' => hin p' (by omega)).cons hx
        | true =>
          have hterm : isTerminator P p := by
            refine ⟨sl, i, h2, h3, ?_⟩
            cases i <;> first | exact Bool.noConfusion hc | exact .inl rfl | exact .inr rfl
          have hlast : stop = p + 1 := by
            rcases Nat.lt_or_ge (p + 1) stop with h6 | h6
            · exact absurd hterm (hin p (Nat.le_refl _) h6)
            · omega
          have hqs : qs = [] := by
            rw [← hlast] at h5
            cases h5 with
            | nil => rfl
            | one h6 => omega
            | wide h6 => omega
          subst hqs
          cases hp'
          cases t1
          obtain ⟨j, os, rfl, hj⟩ := planI_end hc hpl
          cases t0 with
          | @emit _ _ _ _ _ av vs z e1 e2 e3 e4 =>
            refine .jump [] z sl i rfl (by simp) (by rw [hlast]; exact h2) h3 ?_
            rw [show stop - 1 = p by omega]
            exact hj _ (by rw [e3]) (by rw [e3]) (by rw [e3])

/-! ## Block level -/

theorem Chain.empty {stop p : Nat} {qs : List PreInsn} (h : Chain P stop p qs) (e : p = stop) : qs = [] := by
  cases h with
  | nil => rfl
  | one h6 => omega
  | wide h6 => omega

theorem Reach.lt (hG : Lift.Graph P C) (h0 : 0 < C.length) {b : Nat} (h : Reach C b) : b < C.length := by
  obtain ⟨n, hn⟩ := h
  cases hn with
  | zero => exact h0
  | succ _ hc =>
    obtain ⟨k, hk, hm⟩ := mem_succs hc
    obtain ⟨k', hk'⟩ := hG.lt_succ hk hm
    exact lt_of_get hk'

/-- A reachable block: its slots, its code, how it ends. -/
theorem reach_ending (hG : Lift.Graph P C) (hF : Fin C g s) (h0 : 0 < C.length) {b : Nat} (h : Reach C b) :
    ∃ k, C[b]? = some k ∧ ((k.start = P.length ∧ k.stop = P.length ∧ g.code b = [] ∧ succsOf C b = []) ∨ (k.start < k.stop ∧ Ending P C k.stop s.insn (g.code b))) := by
  have hlt := h.lt hG h0
  obtain ⟨k, hk⟩ : ∃ k, C[b]? = some k := ⟨_, List.getElem?_eq_getElem hlt⟩
  refine ⟨k, hk, ?_⟩
  obtain ⟨a1, a2, a3⟩ := hG.stop b k hk
  have hc := hG.chain b k hk
  have hp := hF.gi.fil b (hF.filled h)
  rw [insns_get hk] at hp
  have ht := hF.gi.inv.tr b
  by_cases hlt : k.start < k.stop
  · refine .inr ⟨hlt, chain_ending hG.ws.legal hc hp ht ?_ (hG.inner b k hk)⟩
    intro e
    rw [e] at hc
    have := hc.nil_eq
    omega
  · have e1 : k.start = k.stop := by omega
    have e2 : k.start = P.length := by
      rcases Nat.lt_or_ge k.start P.length with h | h
      · exact absurd (a3 h) hlt
      · omega
    refine .inl ⟨e2, by omega, ?_, ?_⟩
    · rw [hc.empty e1] at hp
      generalize g.acts b = as at hp ht
      cases hp
      generalize g.code b = xs at ht ⊢
      generalize look s b = m2 at ht
      generalize g.start b = m1 at ht
      cases ht
      rfl
    · rw [succs_get hk]
      cases hs : k.succs with
      | nil => rfl
      | cons t ts =>
        exfalso
        have ht : t ∈ k.succs := by rw [hs]; simp
        obtain ⟨k', hk'⟩ := hG.lt_succ hk ht
        have := (((hG.edge b t k k' hk hk').1).1 ht).1
        omega

/-- The blocks that count. -/
def Live0 (C : List Blk) (b : Nat) : Prop := Reach C b ∧ b < C.length

/-- A finished lift with everything known about it. -/
structure Lifted (P : List Slot) (C : List Blk) (g : Gh) (s : LSt) : Prop where
  graph : Lift.Graph P C
  fin : Fin C g s
  books : Books (Live0 C) s
  pos : 0 < C.length

theorem lifted_of (hG : Lift.Graph P C) (h0 : 0 < C.length) {n : Nat} (hl : liftBlocks n C = .ok s) : ∃ g, Lifted P C g s := by
  obtain ⟨g, hF⟩ := hG.fin hl
  refine ⟨g, hG, hF, lift_books ?_ ?_ ⟨⟨0, .zero⟩, h0⟩ hl, h0⟩
  · rintro b p ⟨h1, h2⟩ hp
    have := hF.live b h1 p hp
    exact ⟨this, this.lt hG h0⟩
  · rintro b p ⟨⟨n, h1⟩, h2⟩ hp
    have : Reach C p := ⟨n + 1, .succ h1 hp⟩
    exact ⟨this, this.lt hG h0⟩

theorem plain_ends {o : Op} (h : plainOp o = true) : IR.ends o = false ∧ o ≠ .ja ∧ o.condJmp = false ∧ o ≠ .phi ∧ o ≠ .load ∧ o ≠ .store ∧ o ≠ .alloc := by
  cases o <;> first | exact Bool.noConfusion h | exact ⟨rfl, by simp, rfl, by simp, by simp, by simp, by simp⟩

theorem EndOf.ends {p : Nat} {i : Instr} {j : Insn} (h : EndOf C p i j) : IR.ends j.op = true ∧ (j.op = .ja ∨ j.op.condJmp = true ∨ j.op = .ret) := by
  cases h with
  | ja h1 => rw [h1]; exact ⟨rfl, .inl rfl⟩
  | cond h1 =>
    refine ⟨?_, .inr (.inl h1)⟩
    generalize j.op = o at h1
    cases o <;> first | exact Bool.noConfusion h1 | rfl
  | ret h1 => rw [h1]; exact ⟨rfl, .inr (.inr rfl)⟩

section
variable (h : Lifted P C g s)
include h

theorem Lifted.ending {b : Nat} (hb : Reach C b) : ∃ k, C[b]? = some k ∧
    ((k.start = P.length ∧ k.stop = P.length ∧ g.code b = [] ∧ succsOf C b = []) ∨ (k.start < k.stop ∧ Ending P C k.stop s.insn (g.code b))) := reach_ending h.graph h.fin h.pos hb

theorem Lifted.mem {b x : Nat} (hx : x ∈ s.body b) : Reach C b ∧ b < C.length ∧ s.parent x = b := by
  obtain ⟨h1, _, _, h4, h5⟩ := h.books.body b x hx
  exact ⟨h4, h5, h1⟩

theorem Lifted.known (y : Nat) : Known s y ↔ Live (toFn C s) y := by
  constructor
  · rintro (hy | ⟨b, hb⟩)
    · rcases Nat.eq_zero_or_pos y with rfl | h0
      · exact .inl rfl
      · refine .inr (.inl ?_)
        show y ∈ [1, 2, 3, 4, 5]
        simp; omega
    · exact .inr (.inr ⟨b, List.mem_range.2 (h.mem hb).2.1, hb⟩)
  · rintro (hy | hy | ⟨b, _, hb⟩)
    · exact .inl (by rw [hy]; show 0 < 6; omega)
    · have : y ∈ [1, 2, 3, 4, 5] := hy
      simp at this
      exact .inl (by omega)
    · exact .inr ⟨b, hb⟩

theorem Lifted.tidy : Tidy (toFn C s) := by
  have h6 := h.books.next
  refine ⟨?_, ?_, ?_, fun b _ => h.fin.gi.inv.nodup b, ?_⟩
  · intro x hx
    rcases (h.known x).2 hx with h1 | ⟨b, hb⟩
    · show x < s.next; omega
    · exact (h.fin.gi.inv.rng b x hb).2
  · intro x y _ hr
    exact (h.known y).1 (h.books.refs x y hr)
  · intro b _ x hx
    exact (h.mem hx).2.2
  · intro b _ x hx
    have := (h.fin.gi.inv.rng b x hx).1
    refine ⟨by show x ≠ 0; omega, ?_⟩
    show x ∉ [1, 2, 3, 4, 5]
    simp; omega

theorem Lifted.users : UsersSound (toFn C s) := by
  intro y _
  have hu := h.books.users y
  refine ⟨fun x _ => ⟨?_, (hu.2 x).2⟩, fun x hx => ?_⟩
  · show (s.users y).count x ≤ IR.refs (s.insn x) y
    by_cases hx : x ∈ s.users y
    · have h1 := (hu.2 x).1 hx
      have h2 := List.nodup_iff_count.1 hu.1 x
      omega
    · rw [List.count_eq_zero.2 hx]; omega
  · refine (h.known x).1 ?_
    have h1 := (hu.2 x).1 hx
    rcases Nat.lt_or_ge x s.next with h2 | h2
    · exact h.books.all x h2
    · rw [h.books.far x h2] at h1; omega

theorem Lifted.phisFirst : PhisFirst (toFn C s) := by
  intro b x hx
  have hm : x ∈ s.body b := (List.dropWhile_sublist _).mem hx
  obtain ⟨hr, _, _⟩ := h.mem hm
  rw [(h.fin.split hr).2] at hx
  exact code_op (h.fin.gi.inv.tr b) (h.fin.gi.fil b (h.fin.filled hr)) (h.fin.dec b) x hx

theorem Lifted.ok : Ok (toFn C s) := by
  refine ⟨h.tidy, h.users, h.phisFirst, fun b hb => ?_⟩
  cases hl : (toFn C s).body b with
  | nil => rfl
  | cons x xs =>
    exact absurd (List.mem_range.2 (h.mem (b := b) (x := x) (by show x ∈ (toFn C s).body b; rw [hl]; simp)).2.1) hb

/-! ## Operations -/

/-- Operations of lifted instructions. -/
theorem Lifted.ops {b x : Nat} (hx : x ∈ s.body b) : x ∈ g.phis b ∧ (s.insn x).op = .phi ∨ x ∈ g.code b ∧ plainOp (s.insn x).op = true ∨
    x ∈ g.code b ∧ ∃ k ys, C[b]? = some k ∧ k.start < k.stop ∧ g.code b = ys ++ [x] ∧ ∃ sl i, P[k.stop - 1]? = some sl ∧ decode sl = some i ∧ EndOf C (k.stop - 1) i (s.insn x) := by
  have hx' := hx
  rw [h.fin.gi.inv.body] at hx
  rcases List.mem_append.1 hx with hp | hc
  · exact .inl ⟨hp, (h.fin.gi.inv.phiR b x hp).2⟩
  · obtain ⟨k, hk, ⟨_, _, he, _⟩ | ⟨hlt, he⟩⟩ := h.ending (h.mem hx').1
    · rw [he] at hc; simp at hc
    · cases he with
      | fall h1 h2 => exact .inr (.inl ⟨hc, h1 x hc⟩)
      | jump ys z sl i h1 h2 h3 h4 h5 =>
        have hc' := hc
        rw [h1] at hc'
        rcases List.mem_append.1 hc' with hy | hy
        · exact .inr (.inl ⟨hc, h2 x hy⟩)
        · rw [List.mem_singleton] at hy
          subst hy
          exact .inr (.inr ⟨hc, k, ys, hk, hlt, h1, sl, i, h3, h4, h5⟩)

theorem Lifted.wired {b : Nat} {x : Nat} (hx : x ∈ s.body b) : ((s.insn x).op = .ja → (s.insn x).bb1 ∈ succsOf C b) ∧
    ((s.insn x).op.condJmp = true → (s.insn x).bb1 ∈ succsOf C b ∧ (s.insn x).bb2 ∈ succsOf C b) := by
  rcases h.ops hx with ⟨_, ho⟩ | ⟨_, ho⟩ | ⟨_, k, ys, hk, hlt, _, sl, i, h1, h2, h3⟩
  · rw [ho]; exact ⟨by simp, by simp [Norm.Op.condJmp]⟩
  · obtain ⟨_, a1, a2, _⟩ := plain_ends ho
    exact ⟨fun e => absurd e a1, fun e => by rw [a2] at e; cases e⟩
  · have hflow : ∀ t kt, C[t]? = some kt → (kt.start : Int) ∈ Bpf.flow P (k.stop - 1) → t ∈ succsOf C b := by
      intro t kt hkt hf
      rw [succs_get hk]
      exact ((h.graph.edge b t k kt hk hkt).1).2 ⟨hlt, hf⟩
    rw [flow_get h1, h2] at hflow
    cases h3 with
    | ja e1 e2 =>
      refine ⟨fun _ => ?_, fun e => (by rw [e1] at e; cases e)⟩
      obtain ⟨kt, e3, e4⟩ := bbAt_spec e2
      exact hflow _ kt e3 (by rw [flowI_ja, e4]; simp; omega)
    | cond e1 e2 e3 =>
      refine ⟨fun e => (by rw [e] at e1; cases e1), fun _ => ?_⟩
      obtain ⟨k1, e4, e5⟩ := bbAt_spec e2
      obtain ⟨k2, e6, e7⟩ := bbAt_spec e3
      exact ⟨hflow _ k1 e4 (by rw [flowI_jcc, e5]; simp), hflow _ k2 e6 (by rw [flowI_jcc, e7]; simp; omega)⟩
    | ret e1 => rw [e1]; exact ⟨by simp, by simp [Norm.Op.condJmp]⟩

theorem Lifted.edge {a b : Nat} (he : Edge (toFn C s) a b) : b ∈ succsOf C a := by
  cases he with
  | ja x hx ho hb => rw [← hb]; exact (h.wired hx).1 ho
  | cond x hx ho hb => rcases hb with hb | hb <;> rw [← hb]; exact ((h.wired hx).2 ho).1; exact ((h.wired hx).2 ho).2
  | fall hs => have : succsOf C a = [b] := hs; rw [this]; simp

theorem Lifted.walk {l : List Nat} (hw : Walk (toFn C s) l) : ∀ {b t}, l = b :: t → Reach C b := by
  induction hw with
  | entry => intro b t e; cases e; exact ⟨0, .zero⟩
  | step a b t _ he ih =>
    intro c u e
    cases e
    obtain ⟨n, hn⟩ := ih rfl
    exact ⟨n + 1, .succ hn (h.edge he)⟩

/-- A value known at the start of a block is defined on the way. -/
theorem Lifted.start_dom {l : List Nat} (hw : Walk (toFn C s) l) : ∀ {b t r y}, l = b :: t → g.start b r = some (.insn y) → 6 ≤ y → s.parent y ∈ l := by
  induction hw with
  | entry =>
    intro b t r y e hy h6
    cases e
    cases h.fin.gi.inv.just _ r _ hy with
    | sp h1 h2 => cases h2; omega
    | arg h1 h2 h3 h4 => cases h4; omega
    | copy p h1 h2 h3 h4 h5 => exact absurd rfl h1
    | phi x h1 => exact absurd rfl h1
  | step a b t hw he ih =>
    intro c u r y e hy h6
    cases e
    cases h.fin.gi.inv.just _ r _ hy with
    | sp h1 h2 => cases h2; omega
    | arg h1 h2 h3 h4 => cases h4; omega
    | phi x h1 h2 h3 h4 =>
      cases h3
      have : y ∈ s.body b := by rw [h.fin.gi.inv.body]; simp [h4]
      rw [(h.mem this).2.2]; simp
    | copy p h1 h2 h3 h4 h5 =>
      have hp : a ∈ predsOf C b := (h.fin.edge a b).2 (h.edge he)
      rw [h4, List.mem_singleton] at hp
      subst hp
      rcases (h.fin.gi.inv.tr a).vals h5 with ⟨r', h6'⟩ | hc
      · exact List.mem_cons_of_mem _ (ih rfl h6' h6)
      · have : y ∈ s.body a := by rw [h.fin.gi.inv.body]; simp [hc]
        rw [(h.mem this).2.2]; simp

/-- A value known at the end of a block is defined on the way. -/
theorem Lifted.look_dom {b t r y} (hw : Walk (toFn C s) (b :: t)) (hy : look s b r = some (.insn y)) (h6 : 6 ≤ y) : s.parent y ∈ b :: t := by
  rcases (h.fin.gi.inv.tr b).vals hy with ⟨r', h6'⟩ | hc
  · exact h.start_dom hw rfl h6' h6
  · have : y ∈ s.body b := by rw [h.fin.gi.inv.body]; simp [hc]
    rw [(h.mem this).2.2]; simp

theorem Lifted.body6 {y : Nat} (hy : InBody (toFn C s) y) : 6 ≤ y := by
  obtain ⟨b, _, hb⟩ := hy
  exact (h.fin.gi.inv.rng b y hb).1

theorem Lifted.code_of {b x : Nat} (hx : x ∈ s.body b) (ho : (s.insn x).op ≠ .phi) : x ∈ g.code b := by
  rw [h.fin.gi.inv.body] at hx
  rcases List.mem_append.1 hx with hp | hc
  · exact absurd (h.fin.gi.inv.phiR b x hp).2 ho
  · exact hc

theorem Lifted.phi_of {b x : Nat} (hx : x ∈ s.body b) (ho : (s.insn x).op = .phi) : x ∈ g.phis b := by
  rcases h.ops hx with ⟨hp, _⟩ | ⟨_, h1⟩ | ⟨_, _, _, _, _, _, _, _, _, _, h1⟩
  · exact hp
  · rw [ho] at h1; cases h1
  · have := h1.ends.1; rw [ho] at this; cases this

theorem Lifted.ssa : Ssa (toFn C s) := by
  refine ⟨?_, ?_, ?_, ?_, ?_⟩
  · intro b z hz ho y hy hr t hw
    have hz : z ∈ s.body b := hz
    have hc := h.code_of hz ho
    obtain ⟨l, r, e⟩ := List.append_of_mem hc
    rcases (h.fin.gi.inv.tr b).refs (planned_sound (h.fin.gi.fil b (h.fin.filled (h.mem hz).1))) e y hr with hl | ⟨k, hk⟩
    · have : y ∈ s.body b := by rw [h.fin.gi.inv.body, e]; simp [hl]
      show s.parent y ∈ _
      rw [(h.mem this).2.2]; simp
    · exact h.start_dom hw rfl hk (h.body6 hy)
  · intro b z hz ho p y hp hy t hw
    have hz : z ∈ s.body b := hz
    obtain ⟨h1, h2⟩ := h.fin.complete (h.mem hz).1 (h.phi_of hz ho)
    exact h.look_dom hw (h2 _ hp).2 (h.body6 hy)
  · intro b z hz ho p t hw he
    have hz : z ∈ s.body b := hz
    obtain ⟨h1, h2⟩ := h.fin.complete (h.mem hz).1 (h.phi_of hz ho)
    have hp : p ∈ predsOf C b := (h.fin.edge p b).2 (h.edge he)
    rw [← h1] at hp
    obtain ⟨⟨q, v⟩, ho, e⟩ := List.mem_map.1 hp
    exact ⟨v, by rw [← e]; exact ho⟩
  · intro z hz ho
    have := h.phi_of (b := 0) hz ho
    rw [h.fin.noPhi0] at this
    simp at this
  · intro b z hz ho
    exfalso
    rcases h.ops (b := b) (x := z) hz with ⟨_, h1⟩ | ⟨_, h1⟩ | ⟨_, _, _, _, _, _, _, _, _, _, h1⟩
    · have : ((toFn C s).insn z).op = .phi := h1
      rw [this] at ho; simp at ho
    · obtain ⟨_, _, _, _, a1, a2, _⟩ := plain_ends h1
      exact ho.elim a1 a2
    · have := h1.ends.1
      rcases ho with e | e
      · rw [show (s.insn z).op = .load from e] at this; cases this
      · rw [show (s.insn z).op = .store from e] at this; cases this

/-- Position of an instruction that is not a phi. -/
theorem Lifted.split_code {b : Nat} {l : List Nat} {z : Nat} {r : List Nat} (e : s.body b = l ++ z :: r) (ho : (s.insn z).op ≠ .phi) :
    ∃ l', l = g.phis b ++ l' ∧ g.code b = l' ++ z :: r := by
  rw [h.fin.gi.inv.body] at e
  rcases List.append_eq_append_iff.1 e with ⟨l', e1, e2⟩ | ⟨c', e1, e2⟩
  · exact ⟨l', e1, e2⟩
  · cases c' with
    | nil => exact ⟨[], by simpa using e1.symm, by simpa using e2.symm⟩
    | cons w c' =>
      rw [List.cons_append] at e2
      obtain ⟨e3, _⟩ := List.cons.inj e2
      subst e3
      exact absurd (h.fin.gi.inv.phiR b z (by rw [e1]; simp)).2 ho

theorem Lifted.ordered : Ordered (toFn C s) := by
  intro b _ l z r e ho y hy
  have e : s.body b = l ++ z :: r := e
  have hz : z ∈ s.body b := by rw [e]; simp
  have hr := (h.mem hz).1
  obtain ⟨l', e1, e2⟩ := h.split_code e ho
  rcases Nat.eq_zero_or_pos (IR.refs (s.insn z) y) with h0 | h0
  · exact h0
  · exfalso
    rcases (h.fin.gi.inv.tr b).refs (planned_sound (h.fin.gi.fil b (h.fin.filled hr))) e2 y h0 with hl | ⟨k, hk⟩
    · have hn := h.fin.gi.inv.nodup b
      rw [e, e1, List.append_assoc, List.nodup_append] at hn
      have := (List.nodup_append.1 hn.2.1).2.2 y hl y hy
      exact this rfl
    · exact h.fin.fresh hr (by rw [e2]; exact List.mem_append_right _ hy) hk

theorem Lifted.endsLast : EndsLast (toFn C s) := by
  intro b l z r e hz
  have e : s.body b = l ++ z :: r := e
  have hm : z ∈ s.body b := by rw [e]; simp
  rcases h.ops hm with ⟨_, h1⟩ | ⟨_, h1⟩ | ⟨_, k, ys, _, _, h1, _, _, _, _, h2⟩
  · rw [show ((toFn C s).insn z).op = .phi from h1] at hz; cases hz
  · rw [show IR.ends ((toFn C s).insn z).op = false from (plain_ends h1).1] at hz; cases hz
  · have ho : (s.insn z).op ≠ .phi := by intro e; have := h2.ends.1; rw [e] at this; cases this
    obtain ⟨l', e1, e2⟩ := h.split_code e ho
    have hn := h.fin.gi.inv.nodup b
    rw [h.fin.gi.inv.body, e2, List.nodup_append] at hn
    rcases List.eq_nil_or_concat r with rfl | ⟨r', w, rfl⟩
    · rfl
    · exfalso
      rw [h1] at e2
      have : ys ++ [z] = (l' ++ z :: r') ++ [w] := by rw [e2]; simp
      have hw := (List.append_inj_right' this rfl)
      simp at hw
      subst hw
      have := hn.2.1
      rw [List.nodup_append] at this
      have := this.2.1
      simp at this

theorem Lifted.graphF : IR.Graph (toFn C s) := by
  refine ⟨?_, ?_, ?_⟩
  · intro a _ b _
    exact (h.fin.edge a b).symm
  · intro a ha
    have ha : a ∈ List.range C.length := ha
    have hk := List.getElem?_eq_getElem (List.mem_range.1 ha)
    refine ⟨?_, fun b hb => ?_⟩
    · show (succsOf C a).Nodup
      rw [succs_get hk]; exact (h.graph.edge a a _ _ hk hk).2.2.1
    · have hb : b ∈ succsOf C a := hb
      rw [succs_get hk] at hb
      exact List.mem_range.2 ((h.graph.edge a a _ _ hk hk).2.2.2.2 b (.inl hb))
  · intro a ha
    have ha : a ∈ List.range C.length := ha
    have hk := List.getElem?_eq_getElem (List.mem_range.1 ha)
    refine ⟨?_, fun b hb => ?_⟩
    · show (predsOf C a).Nodup
      rw [preds_get hk]; exact (h.graph.edge a a _ _ hk hk).2.2.2.1
    · have hb : b ∈ predsOf C a := hb
      rw [preds_get hk] at hb
      exact List.mem_range.2 ((h.graph.edge a a _ _ hk hk).2.2.2.2 b (.inr hb))

theorem Lifted.shape : Shape (toFn C s) := by
  refine ⟨h.tidy, h.graphF, fun b _ x hx => h.wired hx, List.mem_range.2 h.pos, fun b _ => h.phisFirst b, fun b _ => h.endsLast b, ?_⟩
  intro b _ x hx ho o hm
  have hx : x ∈ s.body b := hx
  obtain ⟨h1, h2⟩ := h.fin.complete (h.mem hx).1 (h.phi_of hx ho)
  have : o.1 ∈ predsOf C b := by rw [← h1]; exact List.mem_map_of_mem hm
  obtain ⟨k, hk, hp⟩ := mem_preds this
  exact List.mem_range.2 ((h.graph.edge b b _ _ hk hk).2.2.2.2 _ (.inr hp))

end
end Verif.Lift
