import Verif.Lift.AcceptProps
import Verif.Pipe.Examples
/-!
# C61: from the program to the function handed to code generation, without conditions on the run
-/
namespace Verif.Pipe
open Verif Verif.IR Verif.Bpf
open Verif.Lift (Clean)

theorem clean_six {P : List Slot} (h : ∀ sl ∈ P, ∀ i, decode sl = some i → Clean i) : ∀ sl ∈ P, decode sl ≠ some (.call 6) := fun sl hsl e => h sl hsl _ e rfl

/-- C58 and C59 for all programs of the kind described there whose instructions are supported and whose registers are written before they are read: lifting and the passes
succeed, the function they hand on is well-formed SSA and does what the bytecode does. -/
theorem C61_passes {P : List Slot} (h : Fair P) (hr : KnownRegs P) (hs : ¬ Unknown P) (hi : ¬ ReadsUnset P) :
    ∃ n0, ∀ n, n0 ≤ n → ∃ g R k, (∀ fuel, k ≤ fuel → ∀ check, (do let s ← lift n fuel check P; passes fuel check s) = .ok (g, R)) ∧ LaidOut g R ∧ WellFormed g R ∧ Ssa g ∧ Ordered g ∧ UsersListed g ∧
      ∀ M W σ τ, Lift.Agree M W → Lift.Start σ τ → Lifts M P σ W g τ := by
  obtain ⟨n0, h0⟩ := Lift.C61_exact h.shaped h.closed h.len hr (clean_six h.clean)
  refine ⟨n0, fun n hn => ?_⟩
  obtain ⟨f, hf⟩ := (h0 n hn).1.2 ⟨hs, hi⟩
  exact C59_passes h.shaped h.closed h.len h.usual h.clean hf

example : Fair Lift.exL ∧ KnownRegs Lift.exL ∧ ¬ Unknown Lift.exL ∧ ¬ ReadsUnset Lift.exL :=
  ⟨fair_of_check (by decide +kernel), Lift.known_of_check (by decide +kernel), Lift.unknown_of_check (by decide +kernel), Lift.init_of_check (K := Lift.exLK) (by decide +kernel)⟩

end Verif.Pipe
