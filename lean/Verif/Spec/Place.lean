import Verif.Norm.Model
/-!
# Specification: places of positions
-/
namespace Verif.Loc
open Verif.Norm (VrPos)

/-- The place (`Verif/Spec/Loc.lean`) of a position: places 0..10 are the machine registers, a spilled value has a place
for its slot (at a negative or positive offset). -/
def placeOf (p : VrPos) : Nat :=
  if p.spilled = 0 then p.reg
  else if p.spilled < 0 then 11 + 3 * p.spilled.natAbs
  else 12 + 3 * p.spilled.natAbs

/-- The place of the virtual register `x`. -/
def virt (x : Nat) : Nat := 13 + 3 * x

/-- The places of the instructions; a value that has no position yet is in a virtual register. -/
def places (pos : Nat → VrPos) : Nat → Nat := fun x => if (pos x).allocated then placeOf (pos x) else virt x

end Verif.Loc
