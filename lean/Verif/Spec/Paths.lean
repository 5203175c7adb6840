import Verif.Spec.Ir
/-!
# Specification: executed instruction sequences, and results without positions
-/
namespace Verif.IR
open Verif

/-- The instructions executed in at most `n` steps (phi nodes are part of entering a block and not listed). -/
def path (W : World) (f : Fn) : Nat → Nat → List Nat → St → List Nat
  | 0, _, _, _ => []
  | n + 1, b, rest, σ =>
    rest.take 1 ++
    match step W f b rest σ with
    | .goto b' rest' σ' => path W f n b' rest' σ'
    | _ => []

/-- The same result; of unfinished runs, the same state. -/
inductive SameRes : Res → Res → Prop
  | done (x : BitVec 64) (σ : St) : SameRes (.done x σ) (.done x σ)
  | thrown (σ : St) : SameRes (.thrown σ) (.thrown σ)
  | running (b c : Nat) (r s : List Nat) (σ : St) : SameRes (.running b r σ) (.running c s σ)
  | stuck : SameRes .stuck .stuck

/-- Jumps lead to successors of their block. -/
def Wired (f : Fn) : Prop :=
  ∀ b ∈ f.allBbs, ∀ x ∈ f.body b,
    ((f.insn x).op = .ja → (f.insn x).bb1 ∈ f.succs b) ∧
    ((f.insn x).op.condJmp = true → (f.insn x).bb1 ∈ f.succs b ∧ (f.insn x).bb2 ∈ f.succs b)

end Verif.IR
