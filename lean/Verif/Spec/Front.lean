import Verif.Spec.Arrays
import Verif.Spec.Lower
import Verif.Cg.Front
/-!
# Specification: the steps before registers are assigned
-/
namespace Verif.Cg
open Verif Verif.IR Verif.Edit Verif.Loc

/-- Each round spills instructions that can be spilled then. -/
def Choices : List (List Nat) → Cg → Int → Prop
  | [], _, _ => True
  | vs :: vss, s, off => (∀ v ∈ vs, Victim s v) ∧ vs.Nodup ∧ ∀ s' off', spill vs s off = .ok (s', off') → Choices vss s' off'

end Verif.Cg
