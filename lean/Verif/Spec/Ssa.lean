import Verif.Spec.Preserve
import Verif.Spec.WellFormed
/-!
# Specification: static single assignment form
-/
namespace Verif.IR
open Verif

/-- The definition of a value is on every way to its uses; for a use in a phi, on every way to the block the value comes
from.  A phi has an operand for every edge, there is none in the entry block, and only allocs are loaded and stored. -/
structure Ssa (f : Fn) : Prop where
  uses : ∀ b, ∀ z ∈ f.body b, (f.insn z).op ≠ .phi → ∀ y, InBody f y → 0 < refs (f.insn z) y → Dom f (f.parent y) b
  phiUses : ∀ b, ∀ z ∈ f.body b, (f.insn z).op = .phi → ∀ p y, (p, .insn y) ∈ (f.insn z).phi → InBody f y → Dom f (f.parent y) p
  phiAll : ∀ b, ∀ z ∈ f.body b, (f.insn z).op = .phi → ∀ p h, Walk f (p :: h) → Edge f p b → ∃ v, (p, v) ∈ (f.insn z).phi
  entry : ∀ z ∈ f.body f.entry, (f.insn z).op ≠ .phi
  vars : ∀ b, ∀ z ∈ f.body b, (f.insn z).op = .load ∨ (f.insn z).op = .store → ∀ a, (f.insn z).vals.head? = some (.insn a) →
    (f.insn a).op = .alloc

/-- The block can be reached. -/
def Reach (f : Fn) (b : Nat) : Prop := ∃ h, Walk f (b :: h)

/-- In a block an instruction only uses values in front of it. -/
def Ordered (f : Fn) : Prop :=
  ∀ b, Reach f b → ∀ l z r, f.body b = l ++ z :: r → (f.insn z).op ≠ .phi → ∀ y ∈ z :: r, refs (f.insn z) y = 0

/-- Jumps, returns and throws are at the end of their block only. -/
def EndsLast (f : Fn) : Prop := ∀ b l z r, f.body b = l ++ z :: r → ends (f.insn z).op = true → r = []

end Verif.IR
