import Verif.IR.Steps
import Verif.Spec.Trail
import Verif.Spec.Paths
/-!
# Invariants that speak about the history
-/
namespace Verif.IR
open Verif

/-- `H`: executed instructions, `B`: entered blocks, `k`: number of steps. -/
theorem hist_inv {W : World} {f : Fn} (P : Nat → List Nat → St → List Nat → List Nat → Nat → Prop)
    (hP : ∀ c r σ H B k c1 r1 τ, P c r σ H B k → step W f c r σ = .goto c1 r1 τ →
      P c1 r1 τ (H ++ r.take 1) (B ++ if leaves f r then [c1] else []) (k + 1)) :
    ∀ (m : Nat) {c r σ H B k}, P c r σ H B k → ∃ c1 r1 τ H1 k1, P c1 r1 τ H1 (B ++ trail W f m c r σ) k1 ∧
      (H ++ path W f m c r σ = H1 ∨ H ++ path W f m c r σ = H1 ++ r1.take 1) ∧
      (∀ c2 r2 τ2, run W f m c r σ = .running c2 r2 τ2 → k1 = k + m) := by
  intro m
  induction m with
  | zero =>
    intro c r σ H B k h
    exact ⟨c, r, σ, H, k, by simpa [trail] using h, .inl (by simp [path]), fun _ _ _ _ => rfl⟩
  | succ m ih =>
    intro c r σ H B k h
    cases hs : step W f c r σ with
    | goto c1 r1 τ =>
      obtain ⟨c2, r2, τ2, H2, k2, h1, h2, h3⟩ := ih (hP _ _ _ _ _ _ _ _ _ h hs)
      refine ⟨c2, r2, τ2, H2, k2, ?_, ?_, ?_⟩
      · simpa [trail, hs] using h1
      · simpa [path, hs] using h2
      · intro c3 r3 τ3 h4
        simp only [run, hs] at h4
        have := h3 c3 r3 τ3 h4
        omega
    | done x =>
      exact ⟨c, r, σ, H, k, by simpa [trail, hs] using h, .inr (by simp [path, hs]), by intro _ _ _ h; simp [run, hs] at h⟩
    | thrown =>
      exact ⟨c, r, σ, H, k, by simpa [trail, hs] using h, .inr (by simp [path, hs]), by intro _ _ _ h; simp [run, hs] at h⟩
    | stuck =>
      exact ⟨c, r, σ, H, k, by simpa [trail, hs] using h, .inr (by simp [path, hs]), by intro _ _ _ h; simp [run, hs] at h⟩

end Verif.IR
