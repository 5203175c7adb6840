import Verif.Spec.Loc
import Verif.Spec.Place
import Verif.Spec.Uses
import Verif.Spec.Live
/-!
# Specification: copies for phis
-/
namespace Verif.Loc
open Verif Verif.IR

/-- The copies wanted at the end of block `p`: (phi, operand) for the phis of the blocks `R` in order. -/
def copiesAt (f : Fn) (R : List Nat) (p : Nat) : List (Nat × Val) :=
  (R.flatMap (phisOf f)).flatMap (fun x => ((f.insn x).phi.filter (fun o => o.1 == p)).map (fun o => (x, o.2)))

/-- The copies at the end of a block can be made one after the other, whatever edge is taken then:
the jump does not read a place that was written; if a place that got a value is needed at the start of the code of a successor,
the last copy to it was for a phi of this successor, and its operand was not overwritten before.
No operand is undefined, and a phi has at most one operand for a block. -/
structure CopiesFit (f : Fn) (R : List Nat) (l : Nat → Nat) : Prop where
  jump : ∀ p ∈ R, ∀ z ∈ f.body p, control (f.insn z).op = true → (f.insn z).op ≠ .phi →
    ∀ o ∈ copiesAt f R p, l o.1 ∉ reads l (f.insn z)
  edge : ∀ p ∈ R, ∀ c ∈ f.succs p, ∀ A x v B, copiesAt f R p = A ++ (x, v) :: B → Needed f l (l x) c (codeOf f c) →
    (∀ o ∈ B, l o.1 ≠ l x) → x ∈ phisOf f c ∧ ∀ o ∈ A, l o.1 ∉ place l v
  defined : ∀ p ∈ R, ∀ o ∈ copiesAt f R p, o.2 ≠ .undef
  once : ∀ c ∈ R, ∀ x ∈ phisOf f c, ((f.insn x).phi.map (·.1)).Nodup

/-- What is known about a function when its phis are removed: it is tidy, users are listed, the phis are at the front of their blocks and not in the
entry, their operands belong to blocks of the function, `load` reads a variable; `regs r` are fixed instructions that stand for the
machine registers. -/
structure PhiReady (f : Fn) (R : List Nat) (pos : Nat → Norm.VrPos) (regs : Norm.Reg → Nat) : Prop where
  tidy : Tidy f
  users : ∀ u y, Live f u → Live f y → 0 < refs (f.insn u) y → u ∈ f.users y
  blocks : R.Nodup ∧ ∀ b ∈ R, b ∈ f.allBbs
  front : ∀ b ∈ R, ∀ x ∈ codeOf f b, (f.insn x).op ≠ .phi
  entry : phisOf f f.entry = []
  from_ : ∀ b ∈ R, ∀ x ∈ phisOf f b, ∀ o ∈ (f.insn x).phi, o.1 ∈ f.allBbs
  loads : ∀ b ∈ R, ∀ x ∈ f.body b, (f.insn x).op = .load → ∀ a, (f.insn x).vals = [.insn a] → (f.insn a).op ≠ .phi
  regs : ∀ r, (regs r = f.sp ∨ regs r ∈ f.args) ∧ places pos (regs r) = r

/-- Functions without the three hazards.  `one`: the phis that get a value at the end of a block belong to one successor.
`lost`: after the edge to another successor such a phi is not used any more, nor by the jump (`jump`).  `swap`: the operand of a copy is not a phi
that was assigned before.  The other parts say that a phi has exactly one defined operand for each predecessor. -/
structure PhiSafe (f : Fn) (R : List Nat) (dst : Nat → Option Nat) : Prop where
  one : ∀ p ∈ R, ∀ o ∈ copiesAt f R p, ∀ o' ∈ copiesAt f R p, ∀ c ∈ R, o.1 ∈ phisOf f c → o'.1 ∈ phisOf f c
  lost : ∀ p ∈ R, ∀ o ∈ copiesAt f R p, ∀ c ∈ f.succs p, o.1 ∉ phisOf f c → ¬ IR.Needed f dst o.1 c (f.body c)
  jump : ∀ p ∈ R, ∀ z ∈ f.body p, control (f.insn z).op = true → (f.insn z).op ≠ .phi → ∀ o ∈ copiesAt f R p, refs (f.insn z) o.1 = 0
  swap : ∀ p ∈ R, ∀ A x v B, copiesAt f R p = A ++ (x, v) :: B → ∀ o ∈ A, v ≠ .insn o.1
  full : ∀ p ∈ R, ∀ c ∈ f.succs p, ∀ x ∈ phisOf f c, ∃ o ∈ (f.insn x).phi, o.1 = p
  once : ∀ c ∈ R, ∀ x ∈ phisOf f c, ((f.insn x).phi.map (·.1)).Nodup
  defined : ∀ p ∈ R, ∀ o ∈ copiesAt f R p, o.2 ≠ .undef

/-- The part of this that does not hold of all well-formed functions: none of the hazards occurs. -/
structure Smooth (f : Fn) (R : List Nat) (dst : Nat → Option Nat) : Prop where
  one : ∀ p ∈ R, ∀ o ∈ copiesAt f R p, ∀ o' ∈ copiesAt f R p, ∀ c ∈ R, o.1 ∈ phisOf f c → o'.1 ∈ phisOf f c
  lost : ∀ p ∈ R, ∀ o ∈ copiesAt f R p, ∀ c ∈ f.succs p, o.1 ∉ phisOf f c → ¬ IR.Needed f dst o.1 c (f.body c)
  jump : ∀ p ∈ R, ∀ z ∈ f.body p, control (f.insn z).op = true → (f.insn z).op ≠ .phi → ∀ o ∈ copiesAt f R p, refs (f.insn z) o.1 = 0
  swap : ∀ p ∈ R, ∀ A x v B, copiesAt f R p = A ++ (x, v) :: B → ∀ o ∈ A, v ≠ .insn o.1

end Verif.Loc
