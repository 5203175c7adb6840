import Verif.Spec.Cfg
import Verif.Flatten.EmitProps
/-!
# Specification: what the lifter accepts and hands on
-/
namespace Verif.Pipe
open Verif Verif.IR
open Verif.Flatten (graphOf)

/-- Instructions that the IR can express and the checker accepts: byte swaps of 16, 32 or 64 bits, and no call of helper 0 (which does not exist). -/
def Usual : Bpf.Instr → Prop
  | .swap _ _ wd => wd = 16 ∨ wd = 32 ∨ wd = 64
  | .call fid => fid ≠ 0
  | _ => True

/-- What the layout has found. -/
structure LaidOut (f : Fn) (R : List Nat) : Prop where
  nodup : R.Nodup
  mem : ∀ b, b ∈ R ↔ b ∈ f.allBbs
  first : R.head? = some f.entry
  next : ∀ b ∈ R, ∀ c, Layout.Falls (graphOf f) b c → Layout.Next R b c

end Verif.Pipe
