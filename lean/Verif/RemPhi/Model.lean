import Verif.Cg.Model
import Verif.Spec.Ir
/-!
# Model of `remove_phi` (core/ir_cg.c:1262-1314)

`regs r` is the instruction that stands for the machine register `r` (`cg_info(fun)->regs`, created in `init_cg`,
core/ir_cg.c:112-133).  `dst x` is the destination of `x`.
-/
namespace Verif.RemPhi
open Verif Verif.IR Verif.Edit Verif.Cg
open Verif.Norm (VrPos Reg)

/-- The loop over the operands of the phi `x`, core/ir_cg.c:1291-1303: a copy at the end of each block, at the position
of the phi. -/
def copyOps (x : Nat) (p : VrPos) : List (Nat × Val) → Cg → Cg
  | [], s => s
  | o :: r, s =>
    copyOps x p r
      { f := removeUser (createBb s.f (mkAssign o.2) o.1 .backBeforeJmp) o.2 x
        pos := upd s.pos s.f.next p }

/-- `array_free(&insn->phi)`, core/ir_cg.c:1305 -/
def dropPhi (f : Fn) (x : Nat) : Fn := { f with insn := upd f.insn x { f.insn x with phi := [] } }

/-- Remove the phi `x`, core/ir_cg.c:1287-1310; `erase_insn_cg` (core/ir_cg.c:29-70) does to the function what
`bpf_ir_erase_insn` does. -/
def removeOne (regs : Reg → Nat) (x : Nat) (s : Cg) : Out Cg := do
  let p := s.pos x
  let t := copyOps x p (s.f.insn x).phi s
  let f ← erase (replaceAll (dropPhi t.f x) x (.insn (regs p.reg))) x
  .ok { f := f, pos := t.pos }

/-- The second loop, core/ir_cg.c:1284-1311 -/
def removeAll (regs : Reg → Nat) : List Nat → Cg → Out Cg
  | [], s => .ok s
  | x :: xs, s => do
    let t ← removeOne regs x s
    removeAll regs xs t

/-- The assertions of the first loop, core/ir_cg.c:1274-1276 -/
def phiOk (dst : Nat → Option Nat) (s : Cg) (x : Nat) : Bool := dst x = some x && (s.pos x).spilled = 0

/-- `remove_phi`, core/ir_cg.c:1262-1314; `R` are the reachable blocks. -/
def removePhi (regs : Reg → Nat) (dst : Nat → Option Nat) (R : List Nat) (s : Cg) : Out Cg :=
  let xs := R.flatMap (phisOf s.f)
  if xs.all (phiOk dst s) then removeAll regs xs s else .crit

end Verif.RemPhi
