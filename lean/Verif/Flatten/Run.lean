import Verif.Flatten.Exec
/-!
# Flattening: runs
-/
namespace Verif.Flatten
open Verif Verif.IR Verif.Loc
open Verif.Norm (VrPos FVal FInsn posType)

variable {f : Fn} {R : List Nat} {dst : Nat → Option Nat} {pos : Nat → VrPos} {p : BitVec 64} {M : Bpf.World} {W : World}

theorem taken_flat (h : Placed f R dst pos) {τ : Loc.St} {σ : Bpf.St} (hm : Mirror f R pos p τ σ) {b x : Nat} (hb : b ∈ R) (hx : x ∈ f.body b)
    (hg : (f.insn x).op ≠ .getelemptr) {c : Bool} (ht : IR.taken (f.insn x) (view (places pos) τ) = some c) : Flat.taken (fi f dst pos x) σ = some c := by
  unfold IR.taken at ht
  split at ht
  · next v0 v1 hv =>
    simp only [Option.bind_eq_bind, Option.bind_eq_some_iff] at ht
    obtain ⟨o, ho, w, hw, y, hy, z, hz, hs⟩ := ht
    have h0 := opv h hm hb hx hg (by rw [hv]; simp) hy
    have h1 := opv h hm hb hx hg (by rw [hv]; simp) hz
    have e0 : (fi f dst pos x).v0 = fv pos v0 := by
      show ((f.insn x).vals.map (fv pos))[0]?.getD .other = _
      rw [hv]
      rfl
    have e1 : (fi f dst pos x).v1 = fv pos v1 := by
      show ((f.insn x).vals.map (fv pos))[1]?.getD .other = _
      rw [hv]
      rfl
    have ho' : Flat.condOp (fi f dst pos x).op = some o := ho
    have hw' : Flat.width (fi f dst pos x).aluOp = some w := hw
    unfold Flat.taken
    rw [ho', hw', e0, e1, h0, h1]
    exact hs
  · cases ht

theorem ret_flat (h : Placed f R dst pos) {τ : Loc.St} {σ : Bpf.St} (hm : Mirror f R pos p τ σ) {b x : Nat} (hb : b ∈ R) (hx : x ∈ f.body b)
    (hg : (f.insn x).op ≠ .getelemptr) {v : Val} {y : BitVec 64} (hv : (f.insn x).vals = [v]) (he : eval (view (places pos) τ) v = some y) :
    Flat.retVal (fi f dst pos x) σ = some y := by
  have e0 : (fi f dst pos x).v0 = fv pos v := by
    show ((f.insn x).vals.map (fv pos))[0]?.getD .other = _
    rw [hv]
    rfl
  have e1 : (fi f dst pos x).valueNum = 1 := by
    show (f.insn x).vals.length = 1
    rw [hv]
    rfl
  unfold Flat.retVal
  rw [if_neg (by rw [e1]; simp), e0]
  exact opv h hm hb hx hg (by rw [hv]; simp) he

/-- No phis: the body is all code. -/
theorem noPhis (h : Placed f R dst pos) {b : Nat} (hb : b ∈ R) : phisOf f b = [] ∧ codeOf f b = f.body b := by
  unfold phisOf codeOf
  cases hB : f.body b with
  | nil => exact ⟨rfl, rfl⟩
  | cons x r =>
    have h1 : ((f.insn x).op == .phi) = false := beq_false_of_ne (h.plain b hb x (by rw [hB]; simp)).1
    simp [List.takeWhile, List.dropWhile, h1]

theorem enter_flat (h : Placed f R dst pos) {a b : Nat} (hb : b ∈ R) (τ : Loc.St) (σ : Bpf.St) :
    Loc.enter f (places pos) a b τ = .goto b (f.body b) τ ∧ Flat.enter (R.map (fb f dst pos)) b σ = .goto b ((f.body b).map (fi f dst pos)) σ := by
  obtain ⟨h1, h2⟩ := noPhis h hb
  constructor
  · unfold Loc.enter
    rw [h1, h2]
    rfl
  · unfold Flat.enter
    rw [body_flat hb]

/-- Steps correspond. -/
inductive Pair (f : Fn) (R : List Nat) (dst : Nat → Option Nat) (pos : Nat → VrPos) (p : BitVec 64) : Loc.Step → Flat.Step → Prop
  | stuck (s : Flat.Step) : Pair f R dst pos p .stuck s
  | done (v : BitVec 64) : Pair f R dst pos p (.done v) (.done v)
  | goto (b : Nat) (pre rest : List Nat) (τ : Loc.St) (σ : Bpf.St) : b ∈ R → f.body b = pre ++ rest → Mirror f R pos p τ σ →
      Pair f R dst pos p (.goto b rest τ) (.goto b (rest.map (fi f dst pos)) σ)

theorem step_flat (h : Placed f R dst pos) (hf : Flow f R) (hW : Serves f R pos p M W) {τ : Loc.St} {σ : Bpf.St} (hm : Mirror f R pos p τ σ) {b : Nat} (hb : b ∈ R)
    {pre rest : List Nat} (hB : f.body b = pre ++ rest) (hoff : ∀ x r, rest = x :: r → Off f R pos p x τ) :
    Pair f R dst pos p (Loc.step W f (places pos) b rest τ) (Flat.stepB M (R.map (fb f dst pos)) (next f) b (rest.map (fi f dst pos)) σ) := by
  have ent : ∀ t, t ∈ f.succs b → Pair f R dst pos p (Loc.enter f (places pos) b t τ) (Flat.enter (R.map (fb f dst pos)) t σ) := by
    intro t ht
    have hR := hf.succs b hb t ht
    obtain ⟨e1, e2⟩ := enter_flat h (a := b) hR τ σ
    rw [e1, e2]
    exact .goto t [] _ τ σ hR rfl hm
  cases rest with
  | nil =>
    unfold Loc.step Flat.stepB
    simp only [List.map_nil, next]
    cases hs : f.succs b with
    | nil => exact .stuck _
    | cons t r =>
      cases r with
      | nil => exact ent t (by rw [hs]; simp)
      | cons _ _ => exact .stuck _
  | cons x r =>
    have hx : x ∈ f.body b := by rw [hB]; simp
    have hop : (fi f dst pos x).op = (f.insn x).op := rfl
    unfold Loc.step Flat.stepB
    simp only [List.map_cons, hop]
    by_cases h1 : (f.insn x).op = .ja
    · rw [if_pos h1, if_pos h1]
      exact ent _ (hf.ja b hb x hx h1)
    rw [if_neg h1, if_neg h1]
    by_cases h2 : (f.insn x).op.condJmp = true
    · rw [if_pos h2, if_pos h2]
      cases ht : IR.taken (f.insn x) (view (places pos) τ) with
      | none => exact .stuck _
      | some c =>
        rw [taken_flat h hm hb hx (by intro e; rw [e] at h2; cases h2) ht]
        cases c with
        | true => exact ent _ (hf.cond b hb x hx h2).2
        | false => exact ent _ (hf.cond b hb x hx h2).1
    rw [if_neg h2, if_neg h2]
    by_cases h3 : (f.insn x).op = .ret
    · rw [if_pos h3, if_pos h3]
      split
      · next v hv =>
        cases he : eval (view (places pos) τ) v with
        | none => exact .stuck _
        | some y =>
          rw [ret_flat h hm hb hx (by rw [h3]; simp) hv he]
          exact .done y
      · exact .stuck _
    obtain ⟨h4, h5⟩ := h.plain b hb x hx
    rw [if_neg h3, if_neg h3, if_neg h5, if_neg h4]
    cases he : Loc.exec W (places pos) x (f.insn x) τ with
    | none => exact .stuck _
    | some τ' =>
      obtain ⟨σ', e, hm'⟩ := exec_flat h hW hm hb hx (by simp [Loc.control, h1, h2, h3, h4, h5]) (hoff x r rfl) he
      rw [e]
      exact .goto b (pre ++ [x]) r τ' σ' hb (by rw [hB]; simp) hm'

theorem run_flat (h : Placed f R dst pos) (hf : Flow f R) (hW : Serves f R pos p M W) : ∀ (n : Nat) {τ : Loc.St} {σ : Bpf.St} {b : Nat} {pre rest : List Nat},
    Mirror f R pos p τ σ → b ∈ R → f.body b = pre ++ rest →
    (∀ m b' x r τ', Loc.run W f (places pos) m b rest τ = .running b' (x :: r) τ' → Off f R pos p x τ') →
    Loc.run W f (places pos) n b rest τ = .stuck ∨
      Follows f R pos p (Loc.run W f (places pos) n b rest τ) (Flat.runB M (R.map (fb f dst pos)) (next f) n b (rest.map (fi f dst pos)) σ)
  | 0, τ, σ, b, pre, rest, _, _, _, _ => .inr (.running b rest τ)
  | n + 1, τ, σ, b, pre, rest, hm, hb, hB, hs => by
    have hp := step_flat h hf hW hm hb hB (fun x r e => hs 0 b x r τ (by rw [e]; rfl))
    have hs' : ∀ m b' x r τ', Loc.run W f (places pos) (m + 1) b rest τ = .running b' (x :: r) τ' → Off f R pos p x τ' := fun m => hs (m + 1)
    unfold Loc.run at hs' ⊢
    unfold Flat.runB
    revert hp hs'
    generalize Loc.step W f (places pos) b rest τ = s1
    generalize Flat.stepB M (R.map (fb f dst pos)) (next f) b (rest.map (fi f dst pos)) σ = s2
    intro hp hs'
    cases hp with
    | stuck => exact .inl rfl
    | done v => exact .inr (.done v τ σ hm)
    | goto b' pre' rest' τ' σ' hb' hB' hm' => exact run_flat h hf hW n hm' hb' hB' hs'

end Verif.Flatten
