import Verif.Spec.Ir
import Verif.Spec.WellFormed
/-!
# Specification: the blocks an execution goes through
-/
namespace Verif.IR
open Verif

/-- The next step leaves the block. -/
def leaves (f : Fn) : List Nat → Bool
  | [] => true
  | x :: _ => ends (f.insn x).op

/-- The blocks entered in at most `n` steps. -/
def trail (W : World) (f : Fn) : Nat → Nat → List Nat → St → List Nat
  | 0, _, _, _ => []
  | n + 1, b, rest, σ =>
    match step W f b rest σ with
    | .goto b' rest' σ' => (if leaves f rest then [b'] else []) ++ trail W f n b' rest' σ'
    | _ => []

/-- Blocks connected to the entry. -/
inductive Conn (f : Fn) : Nat → Prop
  | entry : Conn f f.entry
  | step {a b : Nat} : Conn f a → b ∈ f.succs a → Conn f b

end Verif.IR
