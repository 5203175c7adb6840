import Verif.Cg.Spill
import Verif.Stack.Model
/-!
# Model of `spill_array` (core/ir_cg.c:230-259)

Simplifications
* `finalized` is in the allocator's state (`Verif/RA`); `spilled_size` is not used after this (it is modelled in `Verif/Stack`).
* The stack offset is an integer here (an `s32` in the code, see `C38_trunc_violated`).
-/
namespace Verif.Cg
open Verif Verif.IR Verif.Edit

/-- The bytes taken for an array, core/ir_cg.c:242-250: `array_num` times the size of an element, rounded up to a multiple of 8, in 32 bits -/
def arrSize (i : Insn) : Out (BitVec 32) := do
  let n ← Stack.sizeOf i.vrType
  if i.aux * n = 0 then .err else .ok ((i.aux * n + 7) &&& ~~~7)

/-- The loop over the instructions, core/ir_cg.c:237-256 -/
def spillArrays : List Nat → Cg → Int → Out (Cg × Int)
  | [], s, off => .ok (s, off)
  | x :: xs, s, off =>
    if (s.f.insn x).op = .allocarray then do
      let n ← arrSize (s.f.insn x)
      spillArrays xs ⟨s.f, upd s.pos x { s.pos x with allocated := true, spilled := newSpill off n.toNat }⟩ (newSpill off n.toNat)
    else spillArrays xs s off

/-- `spill_array`, core/ir_cg.c:230-259, in the reachable blocks `R` -/
def spillArray (R : List Nat) (s : Cg) (off : Int) : Out (Cg × Int) := spillArrays (R.flatMap s.f.body) s off

end Verif.Cg
