import Verif.Spec.Uses
import Verif.Spec.Paths
import Verif.Spec.WellFormed
/-!
# Specification: functions in good shape
-/
namespace Verif.IR
open Verif

/-- What the passes that insert checks rely on: the lists and the graph are consistent, jumps lead to successors, phis come
first, jumps, returns and throws come last, and phis name blocks of the function. -/
structure Shape (f : Fn) : Prop where
  tidy : Tidy f
  graph : Graph f
  wired : Wired f
  entry : f.entry ∈ f.allBbs
  phis : ∀ b ∈ f.allBbs, ∀ x ∈ codeOf f b, (f.insn x).op ≠ .phi
  last : ∀ b ∈ f.allBbs, ∀ l z r, f.body b = l ++ z :: r → ends (f.insn z).op = true → r = []
  labels : ∀ b ∈ f.allBbs, ∀ x ∈ f.body b, (f.insn x).op = .phi → ∀ o ∈ (f.insn x).phi, o.1 ∈ f.allBbs

/-- The execution from the entry gets in front of the instruction `x` in the state `τ`. -/
def Reaches (W : World) (f : Fn) (σ : St) (x : Nat) (τ : St) : Prop := ∃ k b r, runFn W f k σ = .running b (x :: r) τ

end Verif.IR
