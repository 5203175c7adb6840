import Verif.Check.Model
import Verif.Edit.Props
import Verif.Spec.WellFormed
/-!
# C24: the checker accepts exactly the well-formed functions
-/
namespace Verif.Check
open Verif Verif.IR Verif.Edit

theorem need_ok {c : Bool} {u : Unit} : need c = .ok u ↔ c = true := by
  unfold need; cases c <;> simp

theorem each_ok {α : Type} {c : α → Out Unit} {l : List α} {u : Unit} : each l c = .ok u ↔ ∀ a ∈ l, c a = .ok () := by
  induction l with
  | nil => simp [each]
  | cons a l ih => simp only [each, Out.bind_eq_ok, ih, List.forall_mem_cons]; exact ⟨fun ⟨_, h1, h2⟩ => ⟨h1, h2⟩, fun ⟨h1, h2⟩ => ⟨(), h1, h2⟩⟩

theorem seq_ok {a b : Out Unit} {u : Unit} : (a >>= fun _ => b) = .ok u ↔ a = .ok () ∧ b = .ok () := by
  rw [Out.bind_eq_ok]; exact ⟨fun ⟨_, h1, h2⟩ => ⟨h1, h2⟩, fun ⟨h1, h2⟩ => ⟨(), h1, h2⟩⟩

theorem ite_ok {c : Prop} [Decidable c] {a : Out Unit} {u : Unit} : onlyIf c a = .ok u ↔ (c → a = .ok ()) := by
  unfold onlyIf
  split <;> simp [*]

theorem isOp_ok {f : Fn} {o : Op} {i : Insn} {j : Nat} {c : Bool} : (do let c ← isOp f o i j; need c) = .ok () ↔ ∃ v, i.vals[j]? = some v ∧ IsOp f o v := by
  unfold isOp IsOp
  cases h : i.vals[j]? with
  | none => simp
  | some v => cases v <;> simp [need_ok]

theorem arity0 (o : Op) : (o = .loadraw ∨ o = .alloc ∨ o = .ja ∨ o = .phi ∨ o = .allocarray ∨ o = .throw) ↔ arity o = some 0 := by
  cases o <;> simp [arity]
theorem arity1 (o : Op) : (o = .storeraw ∨ o = .load ∨ o = .ret ∨ o = .neg ∨ o = .htobe ∨ o = .htole) ↔ arity o = some 1 := by
  cases o <;> simp [arity]
theorem arity2 (o : Op) : (o = .store ∨ o.binAlu = true ∨ o.condJmp = true ∨ o = .getelemptr) ↔ arity o = some 2 := by
  cases o <;> simp [arity, Norm.Op.binAlu, Norm.Op.condJmp]
theorem arity_le (o : Op) (n : Nat) (h : arity o = some n) : n = 0 ∨ n = 1 ∨ n = 2 := by
  cases o <;> simp [arity] at h <;> omega

theorem validAlu_iff (t : AluTy) : validAlu t = true ↔ t = .w32 ∨ t = .w64 := by cases t <;> simp [validAlu]
theorem validVr_iff (t : VrTy) : validVr t = true ↔ t ≠ .unknown := by cases t <;> simp [validVr]

theorem const_iff (v : Val) : checkConst v = .ok () ↔ ConstOk v := by
  cases v with
  | const k c ct b => cases k <;> cases ct <;> simp [ConstOk, checkConst, need, validAlu]
  | insn x => simp [ConstOk, checkConst]
  | undef => simp [ConstOk, checkConst]

theorem insn_iff {f : Fn} {b x : Nat} : checkInsn f b x = .ok () ↔ f.parent x = b ∧ InsnOk f (f.insn x) := by
  unfold checkInsn
  dsimp only
  generalize f.insn x = i
  simp only [seq_ok, ite_ok, need_ok, isOp_ok (c := true), each_ok, const_iff, arity0, arity1, arity2, decide_eq_true_eq, Bool.or_eq_true, validAlu_iff, validVr_iff]
  constructor
  · rintro ⟨h0, h1, h2, h3, h4, h5, h6, h7, h8, h9, h10⟩
    refine ⟨h0, ?_, fun h => ?_, fun h => ?_, fun h => ?_, h7, h8, h9, ?_, ?_, ?_⟩
    · intro n hn
      rcases arity_le _ _ hn with rfl | rfl | rfl
      · exact h1 hn
      · exact h2 hn
      · exact h4 hn
    · rcases h3 h with (h | h) | h
      · exact .inl h
      · exact .inr (.inl h)
      · exact .inr (.inr h)
    · obtain ⟨v, e, hv⟩ := h5 h
      cases hl : i.vals with
      | nil => simp [hl] at e
      | cons w ws => simp [hl] at e; subst e; exact ⟨w, ws, rfl, hv⟩
    · obtain ⟨v, e, hv⟩ := h6 h
      cases hl : i.vals with
      | nil => simp [hl] at e
      | cons w ws =>
        cases ws with
        | nil => simp [hl] at e
        | cons w' ws => simp [hl] at e; subst e; exact ⟨w, w', ws, rfl, hv⟩
    · intro v hv; exact h10 v (by simp [operands, hv])
    · intro hp o ho
      refine h10 o.2 ?_
      simp only [operands, hp, if_true, List.mem_append, List.mem_map]
      exact .inl (.inr ⟨o, ho, rfl⟩)
    · intro hr
      refine h10 i.addr ?_
      have : raw i.op = true := by simpa [raw] using hr
      simp [operands, this]
  · rintro ⟨h0, h⟩
    refine ⟨h0, fun e => h.arity 0 e, fun e => h.arity 1 e, fun e => ?_, fun e => h.arity 2 e, fun e => ?_, fun e => ?_, h.fid, h.width, h.size, ?_⟩
    · rcases h.swap e with h | h | h
      · exact .inl (.inl h)
      · exact .inl (.inr h)
      · exact .inr h
    · obtain ⟨v, vs, e1, e2⟩ := h.var e; exact ⟨v, by rw [e1]; rfl, e2⟩
    · obtain ⟨v, w, vs, e1, e2⟩ := h.elem e; exact ⟨w, by rw [e1]; rfl, e2⟩
    · intro v hv
      unfold operands at hv
      rcases List.mem_append.1 hv with hv | hv
      · rcases List.mem_append.1 hv with hv | hv
        · exact h.consts v hv
        · split at hv
          · rename_i hp
            obtain ⟨o, ho, rfl⟩ := List.mem_map.1 hv
            exact h.phiConsts hp o ho
          · cases hv
      · split at hv
        · rename_i hp
          have : v = i.addr := by simpa using hv
          rw [this]
          exact h.addrConst (by simpa [raw] using hp)
        · cases hv

theorem phi_iff {f : Fn} : ∀ {l : List Nat} {all : Bool}, checkPhi f all l = .ok () ↔
    (∀ A x B, l = A ++ x :: B → (f.insn x).op = .phi → all = true ∧ ∀ a ∈ A, (f.insn a).op = .phi) := by
  intro l
  induction l with
  | nil => intro all; simp [checkPhi]
  | cons y l ih =>
    intro all
    simp only [checkPhi]
    by_cases hy : (f.insn y).op = .phi
    · rw [if_pos hy, seq_ok, need_ok, ih]
      constructor
      · rintro ⟨h1, h2⟩ A x B e hx
        cases A with
        | nil => exact ⟨h1, by simp⟩
        | cons a A =>
          simp only [List.cons_append, List.cons.injEq] at e
          obtain ⟨rfl, e⟩ := e
          refine ⟨h1, ?_⟩
          intro c hc
          rcases List.mem_cons.1 hc with rfl | hc
          · exact hy
          · exact (h2 A x B e hx).2 c hc
      · intro h
        refine ⟨(h [] y l rfl hy).1, fun A x B e hx => ?_⟩
        have := h (y :: A) x B (by rw [e]; rfl) hx
        exact ⟨this.1, fun a ha => this.2 a (List.mem_cons_of_mem _ ha)⟩
    · rw [if_neg hy, ih]
      constructor
      · intro h A x B e hx
        cases A with
        | nil => simp only [List.nil_append, List.cons.injEq] at e; rw [e.1] at hy; exact absurd hx hy
        | cons a A =>
          simp only [List.cons_append, List.cons.injEq] at e
          exact absurd (h A x B e.2 hx).1 (by simp)
      · intro h A x B e hx
        have := h (y :: A) x B (by rw [e]; rfl) hx
        exact absurd (this.2 y (List.mem_cons_self ..)) hy

theorem uses_iff {f : Fn} {y : Nat} : checkUses f y = .ok () ↔ ∀ u ∈ f.users y, 0 < refs (f.insn u) y := by
  unfold checkUses
  rw [each_ok]
  simp only [need_ok, refs_pos, List.any_eq_true, decide_eq_true_eq, exists_eq_right]

theorem operand_iff {f : Fn} {x : Nat} : checkOperand f x = .ok () ↔ ∀ y, 0 < refs (f.insn x) y → x ∈ f.users y := by
  unfold checkOperand
  rw [each_ok]
  constructor
  · intro h y hy
    have := h _ (refs_pos.1 hy)
    simpa [need_ok] using this
  · intro h v hv
    cases v with
    | insn y => simpa [need_ok] using h y (refs_pos.2 hv)
    | const => rfl
    | undef => rfl

theorem len2 {l : List Nat} (h : l.length = 2) : ∃ a c, l = [a, c] := by
  match l, h with
  | [a, c], _ => exact ⟨a, c, rfl⟩

theorem isJmp_ends (o : Op) : isJmp o = ends o := by cases o <;> rfl

theorem jumps_ok {f : Fn} {b : Nat} {r : Bool} : ∀ {l : List Nat} {seen : Bool}, checkJumps f b seen l = .ok r ↔
    (∀ A x B, l = A ++ x :: B → ends (f.insn x).op = true → B = [] ∧ SuccsOk f b x) ∧ r = (seen || l.any (fun x => ends (f.insn x).op)) := by
  intro l
  induction l with
  | nil =>
    intro seen
    simp only [checkJumps, Out.ok.injEq, List.any_nil, Bool.or_false]
    constructor
    · rintro rfl; exact ⟨fun A x B e => by simp at e, rfl⟩
    · intro h; exact h.2.symm
  | cons y l ih =>
    intro seen
    have hcons : ∀ {P : List Nat → Nat → List Nat → Prop}, (∀ A x B, y :: l = A ++ x :: B → P A x B) ↔ P [] y l ∧ ∀ A x B, l = A ++ x :: B → P (y :: A) x B := by
      intro P
      constructor
      · intro h; exact ⟨h [] y l rfl, fun A x B e => h (y :: A) x B (by rw [e]; rfl)⟩
      · rintro ⟨h1, h2⟩ A x B e
        cases A with
        | nil => simp only [List.nil_append, List.cons.injEq] at e; obtain ⟨rfl, rfl⟩ := e; exact h1
        | cons a A =>
          simp only [List.cons_append, List.cons.injEq] at e
          obtain ⟨rfl, e⟩ := e
          exact h2 A x B e
    rw [hcons]
    simp only [checkJumps, isJmp_ends]
    by_cases hy : ends (f.insn y).op = true
    · rw [if_pos hy]
      by_cases hl : l = []
      · subst hl
        have e1 : (∀ A x B, ([] : List Nat) = A ++ x :: B → ends (f.insn x).op = true → B = [] ∧ SuccsOk f b x) := by
          intro A x B e; simp at e
        have e2 : (∀ A x B, ([] : List Nat) = A ++ x :: B → ends (f.insn x).op = true → B = [] ∧ SuccsOk f b x) ↔ True := ⟨fun _ => trivial, fun _ => e1⟩
        simp only [e2, hy, true_implies, true_and, and_true, ne_eq, not_true_eq_false, if_false, List.any_cons, List.any_nil, Bool.or_false, Bool.or_true, checkJumps]
        unfold SuccsOk
        dsimp only
        split
        · rw [Out.bind_eq_ok]
          simp only [need_ok, decide_eq_true_eq, Out.ok.injEq, List.length_eq_zero_iff]
          exact ⟨fun ⟨_, h1, h2⟩ => ⟨h1, h2.symm⟩, fun ⟨h1, h2⟩ => ⟨(), h1, h2.symm⟩⟩
        · split
          · rw [Out.bind_eq_ok]
            simp only [Out.bind_eq_ok, need_ok, decide_eq_true_eq, Out.ok.injEq, Bool.and_eq_true]
            constructor
            · rintro ⟨_, h1, _, ⟨h2, h3⟩, h4⟩
              refine ⟨?_, h4.symm⟩
              obtain ⟨a, c, e⟩ := len2 h1
              rw [e] at h2 h3 ⊢
              simp at h2 h3
              rw [h2, h3]
            · rintro ⟨h1, h2⟩
              rw [h1]; exact ⟨(), rfl, (), ⟨rfl, rfl⟩, h2.symm⟩
          · rw [Out.bind_eq_ok]
            simp only [Out.bind_eq_ok, need_ok, decide_eq_true_eq, Out.ok.injEq]
            constructor
            · rintro ⟨_, h1, _, h2, h4⟩
              refine ⟨?_, h4.symm⟩
              obtain ⟨a, e⟩ := List.length_eq_one_iff.1 h1
              rw [e] at h2 ⊢
              simp at h2
              rw [h2]
            · rintro ⟨h1, h2⟩
              rw [h1]; exact ⟨(), rfl, (), rfl, h2.symm⟩
      · rw [if_pos hl]
        simp [hy, hl]
    · rw [if_neg hy, ih]
      simp [hy]

theorem jumping_iff {f : Fn} {b : Nat} : checkJumping f b = .ok () ↔
    (∀ p ∈ f.preds b, b ∈ f.succs p) ∧ (∀ s ∈ f.succs b, b ∈ f.preds s) ∧
    (∀ A x B, f.body b = A ++ x :: B → ends (f.insn x).op = true → B = [] ∧ SuccsOk f b x) ∧
    ((∀ x ∈ f.body b, ends (f.insn x).op = false) → ∃ t, f.succs b = [t]) := by
  unfold checkJumping
  rw [seq_ok, seq_ok, each_ok, each_ok, Out.bind_eq_ok]
  simp only [need_ok, List.any_eq_true, decide_eq_true_eq, exists_eq_right, jumps_ok, Bool.false_or]
  refine and_congr_right (fun _ => and_congr_right (fun _ => ?_))
  constructor
  · rintro ⟨r, ⟨h1, h2⟩, h3⟩
    refine ⟨h1, fun h => ?_⟩
    have : r = false := by rw [h2, List.any_eq_false]; simpa using h
    rw [this] at h3
    simp only [Bool.false_eq_true, if_false, need_ok, decide_eq_true_eq] at h3
    exact List.length_eq_one_iff.1 h3
  · rintro ⟨h1, h2⟩
    refine ⟨_, ⟨h1, rfl⟩, ?_⟩
    split
    · rfl
    · rename_i hn
      obtain ⟨t, e⟩ := h2 (by simpa using hn)
      rw [need_ok, e]; rfl

/-- **C24.** The checker reports success if and only if the function is well-formed. -/
theorem C24_checker (f : Fn) (R : List Nat) : progCheck f R = .ok () ↔ WellFormed f R := by
  unfold progCheck checkUsers
  simp only [seq_ok, each_ok, insn_iff, phi_iff, uses_iff, operand_iff, jumping_iff, true_and]
  constructor
  · rintro ⟨h1, h2, ⟨h3, h4, h5⟩, h6⟩
    exact {
      parent := fun b hb x hx => (h1 b hb x hx).1
      insns := fun b hb x hx => (h1 b hb x hx).2
      phis := h2
      users := by
        rintro y (rfl | hy | ⟨b, hb, hy⟩)
        · exact h4
        · exact h3 y hy
        · exact (h5 b hb y hy).1
      listed := fun b hb x hx => (h5 b hb x hx).2
      preds := fun b hb => (h6 b hb).1
      succs := fun b hb => (h6 b hb).2.1
      jumps := fun b hb => (h6 b hb).2.2.1
      fall := fun b hb => (h6 b hb).2.2.2 }
  · intro h
    exact ⟨fun b hb x hx => ⟨h.parent b hb x hx, h.insns b hb x hx⟩, h.phis,
      ⟨fun y hy => h.users y (.inr (.inl hy)), h.users _ (.inl rfl), fun b hb x hx => ⟨h.users x (.inr (.inr ⟨b, hb, hx⟩)), h.listed b hb x hx⟩⟩,
      fun b hb => ⟨h.preds b hb, h.succs b hb, h.jumps b hb, h.fall b hb⟩⟩

/-- The function with a phi of C23 is accepted; without its edge it is refused, and so is an addition without width. -/
example : progCheck phiFn [0, 1] = .ok () ∧ progCheck (disconnect phiFn 0 1) [0, 1] = .err ∧
    progCheck (createBb phiFn (mkBin .add .unknown (.insn 1) (.insn 1)) 0 .front) [0, 1] = .err ∧
    progCheck (createBb phiFn (mkBin .add .w64 (.insn 1) (.insn 1)) 0 .front) [0, 1] = .ok () := by decide +kernel

/-- Moves are not covered by the rules: an assignment without operand is accepted, although it means nothing. -/
theorem C24_gap_assign : progCheck (createBb phiFn { op := .assign } 0 .front) [0, 1] = .ok () ∧
    stuckOf (createBb phiFn { op := .assign } 0 .front) 9 = true := by decide +kernel

/-- Phi operands are not compared with the predecessors: the function of `C23_violated_phi`, after the split, is accepted. -/
theorem C24_gap_phi : onOk (split phiFn 7 .front) (fun g => progCheck g [0, 2, 1] = .ok () ∧ stuckOf g 9 = true) = true := by decide +kernel

end Verif.Check
