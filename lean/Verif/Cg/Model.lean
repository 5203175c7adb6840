import Verif.Edit.Model
/-!
# State of the code generator (core/include/linux/bpf_ir.h:416-460, core/ir_cg.c)

`struct ir_insn_cg_extra` holds for every instruction its destination and its position.  Here: the function, and the
positions as a map from instructions.  An instruction that is created later has a number of its own (`Fn.next`), so
`bpf_ir_init_insn_cg` (core/ir_cg.c:85-105) just sets the map there.
-/
namespace Verif.Cg
open Verif Verif.IR Verif.Edit
open Verif.Norm (VrPos Reg)

/-- A function with the positions of its instructions. -/
structure Cg where
  f : Fn
  pos : Nat → VrPos

/-- `bpf_ir_init_insn_cg`, core/ir_cg.c:91-95: no position yet -/
def noPos : VrPos := { allocated := false, reg := 0, spilled := 0 }

/-- The copies that `coalescing` looks at, core/ir_cg.c:1171-1210: moves, stores to and loads from variables. -/
def copiesOf (f : Fn) (R : List Nat) : List (Nat × Nat) :=
  (R.flatMap f.body).filterMap (fun x =>
    match (f.insn x).op, (f.insn x).vals with
    | .assign, [.insn y] => some (x, y)
    | .store, [.insn a, .insn y] => some (a, y)
    | .load, [.insn a] => some (x, a)
    | _, _ => none)

end Verif.Cg
