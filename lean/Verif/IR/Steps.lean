import Verif.IR.Skip
/-!
# What a single step does
-/
namespace Verif.IR
open Verif

/-- The ways to leave a block. -/
inductive Way (f : Fn) (c : Nat) (σ : St) : List Nat → Nat → Prop
  | fall {t} : f.succs c = [t] → Way f c σ [] t
  | ja {x r} : (f.insn x).op = .ja → Way f c σ (x :: r) (f.insn x).bb1
  | no {x r} : (f.insn x).op.condJmp = true → taken (f.insn x) σ = some false → Way f c σ (x :: r) (f.insn x).bb1
  | yes {x r} : (f.insn x).op.condJmp = true → taken (f.insn x) σ = some true → Way f c σ (x :: r) (f.insn x).bb2

theorem step_cases {W : World} {f : Fn} {c c1 : Nat} {r r1 : List Nat} {σ τ : St} (h : step W f c r σ = .goto c1 r1 τ) :
    (∃ x, r = x :: r1 ∧ c1 = c ∧ plain (f.insn x).op = true ∧ exec W x (f.insn x) σ = some τ) ∨
    (Way f c σ r c1 ∧ r1 = codeOf f c1 ∧ ∃ e, phiAssign f c σ (phisOf f c1) = some e ∧ τ = { σ with env := e }) := by
  have he : ∀ t, enter f c t σ = .goto c1 r1 τ → t = c1 ∧ r1 = codeOf f c1 ∧ ∃ e, phiAssign f c σ (phisOf f c1) = some e ∧ τ = { σ with env := e } := by
    intro t h
    unfold enter at h
    split at h
    · rename_i e he
      cases h
      exact ⟨rfl, rfl, e, he, rfl⟩
    · cases h
  cases r with
  | nil =>
    simp only [step] at h
    split at h
    · rename_i t hs
      obtain ⟨rfl, h1⟩ := he t h
      exact .inr ⟨.fall hs, h1⟩
    · cases h
  | cons x r =>
    simp only [step] at h
    split at h
    · rename_i h0
      obtain ⟨rfl, h1⟩ := he _ h
      exact .inr ⟨.ja h0, h1⟩
    · rename_i h1
      split at h
      · rename_i hc
        split at h
        · rename_i ht
          obtain ⟨rfl, h1⟩ := he _ h
          exact .inr ⟨.yes hc ht, h1⟩
        · rename_i ht
          obtain ⟨rfl, h1⟩ := he _ h
          exact .inr ⟨.no hc ht, h1⟩
        · cases h
      · rename_i h2
        split at h
        · split at h
          · split at h <;> cases h
          · cases h
        · rename_i h3
          split at h
          · cases h
          · rename_i h4
            split at h
            · cases h
            · rename_i h5
              split at h
              · rename_i τ' hx
                cases h
                refine .inl ⟨x, rfl, rfl, ?_, hx⟩
                simp [plain, straight, h1, h2, h3, h4, h5]
              · cases h

/-- An invariant of the steps holds at all positions of a run. -/
theorem run_inv {W : World} {f : Fn} (P : Nat → List Nat → St → Prop)
    (hP : ∀ c r σ c1 r1 τ, P c r σ → step W f c r σ = .goto c1 r1 τ → P c1 r1 τ) :
    ∀ (m : Nat) {c r σ c1 r1 τ}, P c r σ → run W f m c r σ = .running c1 r1 τ → P c1 r1 τ := by
  intro m
  induction m with
  | zero => intro c r σ c1 r1 τ h h1; cases h1; exact h
  | succ m ih =>
    intro c r σ c1 r1 τ h h1
    simp only [run] at h1
    split at h1
    · rename_i hs; exact ih (hP _ _ _ _ _ _ h hs) h1
    · cases h1
    · cases h1
    · cases h1

theorem run_succ {W : World} {f : Fn} {c : Nat} {r : List Nat} {σ : St} : ∀ (m : Nat) {c1 r1 τ}, run W f m c r σ = .running c1 r1 τ →
    run W f (m + 1) c r σ = run W f 1 c1 r1 τ := by
  intro m
  induction m generalizing c r σ with
  | zero => intro c1 r1 τ h; cases h; rfl
  | succ m ih =>
    intro c1 r1 τ h
    rw [run] at h ⊢
    revert h
    cases step W f c r σ with
    | goto b r s => exact fun h => ih h
    | done x => intro h; cases h
    | thrown => intro h; cases h
    | stuck => intro h; cases h

/-- The position is in the function. -/
def At (f : Fn) (c : Nat) (r : List Nat) : Prop := c ∈ f.allBbs ∧ r <:+ f.body c

end Verif.IR
