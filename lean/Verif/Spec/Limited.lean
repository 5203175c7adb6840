import Verif.Spec.Rewrite
/-!
# Specification: a function that does what a program does, unless it throws
-/
namespace Verif.Pipe
open Verif Verif.IR

/-- The function `f` started in `τ` throws. -/
def Throws (W : IR.World) (f : Fn) (τ : IR.St) : Prop := ∃ m τ', runFn W f m τ = .thrown τ'

/-- The function `f` started in `τ` does what the program `P` does when it is started in `σ`, or throws, which it does only if `why` holds: what `P` returns it returns, with the same memory and
the same calls, and it runs for ever if `P` does, unless it throws; if it returns, so does `P` (or `P` is stuck on an instruction that has no meaning). -/
structure LiftsUnless (why : Prop) (M : Bpf.World) (P : List Bpf.Slot) (σ : Bpf.St) (W : IR.World) (f : Fn) (τ : IR.St) : Prop where
  returns : ∀ n x σ', Bpf.run M P n 0 σ = .done x σ' → (∃ m τ', runFn W f m τ = .done x τ' ∧ SameCalls σ' τ') ∨ (why ∧ Throws W f τ)
  forever : (∀ n, ∃ pc σ', Bpf.run M P n 0 σ = .goto pc σ') → (∀ m, ∃ b r τ', runFn W f m τ = .running b r τ') ∨ (why ∧ Throws W f τ)
  only : ∀ m x τ', runFn W f m τ = .done x τ' → (∃ n σ', Bpf.run M P n 0 σ = .done x σ' ∧ SameCalls σ' τ') ∨ ∃ n, Bpf.run M P n 0 σ = .stuck
  throws : Throws W f τ → why ∨ ∃ n, Bpf.run M P n 0 σ = .stuck

/-- No execution of the function takes more than `K` steps. -/
def EndsIn (K : Nat) (W : IR.World) (f : Fn) : Prop := ∀ τ m, K ≤ m → ∀ b r τ', runFn W f m τ ≠ .running b r τ'

end Verif.Pipe
