import Verif.Emit.Props
/-!
# Tests for the hypotheses of C09
-/
namespace Verif.Emit
open Verif Verif.Norm Verif.Layout

def posB (p : VrPos) : Bool := decide (-32768 ≤ p.spilled) && decide (p.spilled < 32768)

theorem pos_of_check {p : VrPos} (h : posB p = true) : PosOk p := by
  simp only [posB, Bool.and_eq_true, decide_eq_true_eq] at h
  exact h

/-- `P` of a constant. -/
def onConst (v : FVal) (P : BitVec 64 → AluTy → Bool) : Bool := match v with | .const _ c t _ => P c t | _ => true

/-- `P` of a position. -/
def onPos (v : FVal) (P : VrPos → Bool) : Bool := match v with | .pos p => P p | _ => true

theorem of_onConst {v : FVal} {P : BitVec 64 → AluTy → Bool} (h : onConst v P = true) {k c t b} (e : v = .const k c t b) : P c t = true := by
  subst e
  exact h

theorem of_onPos {v : FVal} {P : VrPos → Bool} (h : onPos v P = true) {p} (e : v = .pos p) : P p = true := by
  subst e
  exact h

def fits (c : BitVec 64) : Bool := decide ((c.setWidth 32).signExtend 64 = c)

def valB (v : FVal) : Bool := onPos v posB && onConst v (fun c t => fits c || t == .w64)

/-- A test for `Plain`. -/
def plainB (i : FInsn) : Bool :=
  match i.op with
  | .alloc | .allocarray | .loadimm | .call | .ja => true
  | .assign => decide (i.valueNum = 1) && valB i.v0 && posB i.dst && onConst i.v0 (fun _ t => t != .unknown) &&
      decide (posType i.dst = .stack → i.v0.ctype ≠ .w64) && decide (i.aluOp = .w32 → i.v0.ctype = .w32 ∧ posType i.dst = .reg) &&
      onPos i.v0 (fun p => decide (posType p = .stack → i.vrType = .t64))
  | .neg | .htobe | .htole => decide (i.valueNum = 1)
  | .store => decide (i.aluOp ≠ .w32) && valB i.v1 && onPos i.v0 posB && onConst i.v1 (fun _ t => t != .unknown) &&
      onPos i.v0 (fun p => decide (posType p = .stack → i.v1.ctype ≠ .w64)) && onPos i.v1 (fun p => decide (posType p = .stack → i.vrType = .t64))
  | .load => decide (i.valueNum = 1) && (match i.v0 with | .pos p => posB p && decide (posType p = .reg → i.vrType = .t64) | _ => false) && posB i.dst
  | .loadraw => onConst i.addr (fun _ _ => false) &&
      onPos i.addr (fun p => decide (posType p = .stack → -32768 ≤ i.addrOff.toInt + p.spilled ∧ i.addrOff.toInt + p.spilled < 32768))
  | .storeraw => decide (i.valueNum = 1) &&
      onPos i.addr (fun p => decide (posType p = .stack → -32768 ≤ i.addrOff.toInt + p.spilled ∧ i.addrOff.toInt + p.spilled < 32768)) &&
      onConst i.v0 (fun c _ => decide (i.vrType = .t64 → (c.setWidth 32).signExtend 64 = c))
  | .getelemptr => decide (i.valueNum = 2) && decide (i.dst.reg ≠ 10) && onPos i.v1 posB &&
      onConst i.v0 (fun c _ => decide (-2147483648 < (c + BitVec.ofInt 64 i.v1.spillOf).toInt ∧ (c + BitVec.ofInt 64 i.v1.spillOf).toInt < 2147483648))
  | .ret => decide (i.valueNum = 0 ∨ i.valueNum = 1) && (decide (i.valueNum ≠ 1) || onConst i.v0 (fun c _ => fits c))
  | _ =>
    if i.op.condJmp then decide (i.valueNum = 2) && onConst i.v0 (fun c t => t == .w64 || fits c) && onConst i.v1 (fun c t => t == .w64 || fits c) &&
      (onConst i.v0 (fun _ _ => false) || onConst i.v1 (fun _ _ => false))
    else decide (i.valueNum = 2) && valB i.v0 && valB i.v1 && decide (i.aluOp ≠ .w32 ∨ (i.op ≠ .add ∧ i.op ≠ .sub)) &&
      (decide (i.op ≠ .sub) || onPos i.v0 (fun p => decide (posType p = .reg → p.reg ≠ i.dst.reg)) || onPos i.v1 (fun p => decide (posType p = .reg → p.reg ≠ i.dst.reg)))

theorem val_of_check {v : FVal} (h : valB v = true) : ValOk v := by
  simp only [valB, Bool.and_eq_true] at h
  obtain ⟨h1, h2⟩ := h
  cases v with
  | pos p => exact pos_of_check h1
  | const k c t b =>
    intro ht
    subst ht
    have := of_onConst h2 rfl
    simpa [fits] using this
  | other => trivial

theorem plain_of_check {i : FInsn} (h : plainB i = true) : Plain i := by
  have jmp : i.op.condJmp = true → (decide (i.valueNum = 2) && onConst i.v0 (fun c t => t == .w64 || fits c) && onConst i.v1 (fun c t => t == .w64 || fits c) &&
      (onConst i.v0 (fun _ _ => false) || onConst i.v1 (fun _ _ => false))) = true → i.valueNum = 2 ∧
      (∀ k v ct b, i.v0 = .const k v ct b → ct ≠ .w64 → (v.setWidth 32).signExtend 64 = v) ∧
      (∀ k v ct b, i.v1 = .const k v ct b → ct ≠ .w64 → (v.setWidth 32).signExtend 64 = v) ∧
      (∀ k v ct b k' v' ct' b', i.v0 = .const k v ct b → i.v1 = .const k' v' ct' b' → i.aluOp = .w32 → ct ≠ .w64 ∧ ct' ≠ .w64) := by
    intro _ h
    simp only [Bool.and_eq_true, Bool.or_eq_true, decide_eq_true_eq] at h
    obtain ⟨⟨⟨h1, h2⟩, h3⟩, h4⟩ := h
    refine ⟨h1, fun k v ct b e hc => ?_, fun k v ct b e hc => ?_, fun k v ct b k' v' ct' b' e e' => ?_⟩
    · have := of_onConst h2 e
      simpa [fits, hc] using this
    · have := of_onConst h3 e
      simpa [fits, hc] using this
    · rcases h4 with h4 | h4
      · cases of_onConst h4 e
      · cases of_onConst h4 e'
  have alu : (decide (i.valueNum = 2) && valB i.v0 && valB i.v1 && decide (i.aluOp ≠ .w32 ∨ (i.op ≠ .add ∧ i.op ≠ .sub)) &&
      (decide (i.op ≠ .sub) || onPos i.v0 (fun p => decide (posType p = .reg → p.reg ≠ i.dst.reg)) ||
        onPos i.v1 (fun p => decide (posType p = .reg → p.reg ≠ i.dst.reg)))) = true → i.valueNum = 2 ∧ ValOk i.v0 ∧ ValOk i.v1 ∧ ¬ DropsAdd0 i ∧ ¬ SubSelf i := by
    intro h
    simp only [Bool.and_eq_true, Bool.or_eq_true, decide_eq_true_eq] at h
    obtain ⟨⟨⟨⟨h1, h2⟩, h3⟩, h4⟩, h5⟩ := h
    refine ⟨h1, val_of_check h2, val_of_check h3, ?_, ?_⟩
    · rintro ⟨h6, ⟨h7, -⟩ | ⟨h7 | h7, -⟩⟩
      all_goals rcases h4 with h4 | h4
      · exact h4 h6
      · exact h4.1 h7
      · exact h4 h6
      · exact h4.1 h7
      · exact h4 h6
      · exact h4.2 h7
    · rintro ⟨h6, p, q, e1, e2, h7, h8, h9, h10⟩
      rcases h5 with (h5 | h5) | h5
      · exact h5 h6
      · exact of_decide_eq_true (of_onPos h5 e1) h7 h9
      · exact of_decide_eq_true (of_onPos h5 e2) h8 h10
  cases ho : i.op <;> simp only [plainB, ho, Plain] at h ⊢
  case assign =>
    simp only [Bool.and_eq_true, decide_eq_true_eq] at h
    obtain ⟨⟨⟨⟨⟨⟨h1, h2⟩, h3⟩, h4⟩, h5⟩, h6⟩, h7⟩ := h
    refine ⟨h1, val_of_check h2, pos_of_check h3, fun k c b e => ?_, h5, h6, fun p e => of_decide_eq_true (of_onPos h7 e)⟩
    cases of_onConst h4 e
  case neg | htobe | htole => exact of_decide_eq_true h
  case store =>
    simp only [Bool.and_eq_true, decide_eq_true_eq] at h
    obtain ⟨⟨⟨⟨⟨h1, h2⟩, h3⟩, h4⟩, h5⟩, h6⟩ := h
    refine ⟨h1, val_of_check h2, fun p e => pos_of_check (of_onPos h3 e), fun k c b e => ?_, fun p e => of_decide_eq_true (of_onPos h5 e), fun p e => of_decide_eq_true (of_onPos h6 e)⟩
    cases of_onConst h4 e
  case load =>
    simp only [Bool.and_eq_true, decide_eq_true_eq] at h
    obtain ⟨⟨h1, h2⟩, h3⟩ := h
    refine ⟨h1, ?_, pos_of_check h3⟩
    split at h2
    · next p e =>
      simp only [Bool.and_eq_true, decide_eq_true_eq] at h2
      exact ⟨p, e, pos_of_check h2.1, h2.2⟩
    · cases h2
  case loadraw =>
    simp only [Bool.and_eq_true] at h
    exact ⟨fun k c t b e => (by cases of_onConst h.1 e), fun p e => of_decide_eq_true (of_onPos h.2 e)⟩
  case storeraw =>
    simp only [Bool.and_eq_true, decide_eq_true_eq] at h
    exact ⟨h.1.1, fun p e => of_decide_eq_true (of_onPos h.1.2 e), fun k c t b e => of_decide_eq_true (of_onConst h.2 e)⟩
  case getelemptr =>
    simp only [Bool.and_eq_true, decide_eq_true_eq] at h
    exact ⟨h.1.1.1, h.1.1.2, fun p e => pos_of_check (of_onPos h.1.2 e), fun k c t b e => of_decide_eq_true (of_onConst h.2 e)⟩
  case ret =>
    simp only [Bool.and_eq_true, Bool.or_eq_true, decide_eq_true_eq] at h
    refine ⟨h.1, fun h1 k c t b e => ?_⟩
    rcases h.2 with h2 | h2
    · exact absurd h1 h2
    · exact of_decide_eq_true (of_onConst h2 e)
  case jeq | jgt | jge | jlt | jle | jne | jsge | jsle | jsgt | jslt =>
    exact jmp (by rw [ho]; rfl) h
  all_goals exact alu (by rw [ho]; exact h)

/-! ## Graphs -/

/-- The block control falls through to. -/
def fallsTo (g : Graph) (b : Nat) : Option Nat :=
  match (g b).succs with
  | [c] => if (g b).jaTo = none then some c else none
  | [c, _] => some c
  | _ => none

theorem falls_iff {g : Graph} {b c : Nat} : Falls g b c ↔ fallsTo g b = some c := by
  unfold Falls fallsTo
  constructor
  · rintro (⟨h, h'⟩ | ⟨d, h⟩)
    · rw [h]
      simp [h']
    · rw [h]
  · intro h
    split at h
    · next d e =>
      split at h
      · next h' =>
        rw [e]
        exact .inl ⟨by rw [← Option.some.inj h], h'⟩
      · cases h
    · next d e e' =>
      rw [e']
      exact .inr ⟨e, by rw [← Option.some.inj h]⟩
    · cases h

/-- A test for `WF`; control falls through to blocks with larger numbers. -/
def wfB (g : Graph) (entry N : Nat) : Bool :=
  decide (entry < N) &&
  (List.range N).all (fun b => (g b).succs.all (fun c => decide (c < N) && decide (b ∈ (g c).preds)) && (g b).preds.all (fun c => decide (c < N) && decide (b ∈ (g c).succs)) &&
    decide ((g b).succs.length ≤ 2) && (match (g b).jaTo with | some t => decide ((g b).succs = [t]) | none => true) && decide ((g b).preds.Nodup) &&
    decide (fallsTo g b ≠ some entry) &&
    (match fallsTo g b with | some c => decide (b < c) && (List.range N).all (fun b' => decide (fallsTo g b' = some c → b = b')) | none => true))

theorem wf_of_check {g : Graph} {entry N : Nat} (h : wfB g entry N = true) (hout : ∀ b, N ≤ b → (g b).jaTo = none) : WF g entry N := by
  simp only [wfB, Bool.and_eq_true, List.all_eq_true, decide_eq_true_eq, List.mem_range] at h
  obtain ⟨h0, h⟩ := h
  refine ⟨h0, fun b hb c hc => ((h b hb).1.1.1.1.1.1 c hc).1, fun b hb c hc => ((h b hb).1.1.1.1.1.2 c hc).1, fun b hb => (h b hb).1.1.1.1.2, ?_,
    fun b c hb hc => ((h b hb).1.1.1.1.1.1 c hc).2, fun b c hc hb => ((h c hc).1.1.1.1.1.2 b hb).2, fun b hb => (h b hb).1.1.2, ?_, ⟨id, ?_⟩, fun b hb hf => (h b hb).1.2 (falls_iff.1 hf)⟩
  · intro b t e
    by_cases hb : b < N
    · have h1 := (h b hb).1.1.1.2
      rw [e] at h1
      exact of_decide_eq_true h1
    · rw [hout b (Nat.le_of_not_lt hb)] at e
      cases e
  · intro b b' c hb hb' h1 h2
    have h3 := (h b hb).2
    rw [falls_iff.1 h1] at h3
    simp only [Bool.and_eq_true, List.all_eq_true, decide_eq_true_eq, List.mem_range] at h3
    exact h3.2 b' hb' (falls_iff.1 h2)
  · intro b c hb h1
    have h3 := (h b hb).2
    rw [falls_iff.1 h1] at h3
    simp only [Bool.and_eq_true, decide_eq_true_eq] at h3
    exact h3.1

end Verif.Emit
