import Verif.Cg.Lower
import Verif.Cg.SpillArray
import Verif.Cg.SpillConst
/-!
# Model of the steps of `bpf_ir_compile` before colouring (core/ir_cg.c:1324-1377)

Simplifications
* The allocator's analyses and its choice of what to spill (`pre_spill`) are elsewhere (`Verif/Live`, `Verif/RA`); here the choices of the rounds are a
parameter.  So is that at most five rounds spill.
* The debugging checks (`bpf_ir_cg_prog_check`, `bpf_ir_prog_check`, `Verif/Check`) change nothing.
-/
namespace Verif.Cg
open Verif Verif.IR Verif.Edit

/-- The rounds that spill, core/ir_cg.c:1346-1377 -/
def rounds : List (List Nat) → Cg → Int → Out (Cg × Int)
  | [], s, off => .ok (s, off)
  | vs :: vss, s, off => do
    let r ← spill vs s off
    rounds vss r.1 r.2

/-- `bpf_ir_compile` up to the rounds, core/ir_cg.c:1324-1341; the stack offset starts at 0 (`init_cg`) -/
def prepare (f : Fn) (R : List Nat) : Out (Cg × Int) := do
  let s ← lower f R
  let r ← spillArray R s 0
  let t ← spillConst R r.1
  .ok (t, r.2)

end Verif.Cg
