import Verif.Cg.Model
/-!
# Model of the moves of constants to registers (core/ir_cg.c:262-305)
-/
namespace Verif.Cg
open Verif Verif.IR Verif.Edit

/-- `val->type == IR_VALUE_CONSTANT` -/
def isConst : Option Val → Bool
  | some (.const ..) => true
  | _ => false

/-- The tests of `spill_const`, core/ir_cg.c:271-274 and 287-292: the operand that needs a register.  (An instruction passes at most one of them.) -/
def needsReg (i : Insn) : Option Nat :=
  if i.op.binAlu ∧ i.op.comm = false ∧ isConst i.vals[0]? then some 0
  else if i.op.condJmp ∧ i.vals.length = 2 ∧ isConst i.vals[1]? ∧ isConst i.vals[0]? then some 1
  else none

/-- The body of the loop, core/ir_cg.c:271-302 -/
def constToReg (x : Nat) (s : Cg) : Out Cg :=
  match needsReg (s.f.insn x) with
  | none => .ok s
  | some j => do
    let g ← createAt s.f (mkAssign ((s.f.insn x).vals.getD j .undef)) x .front
    let h ← changeValue g x (.val j) (.insn s.f.next)
    .ok ⟨h, upd s.pos s.f.next noPos⟩

def constsToRegs : List Nat → Cg → Out Cg
  | [], s => .ok s
  | x :: xs, s => do
    let s ← constToReg x s
    constsToRegs xs s

/-- `spill_const`, core/ir_cg.c:262-305, in the reachable blocks `R`.  (The instructions it inserts are in front of the current one, so the loop does not see them.) -/
def spillConst (R : List Nat) (s : Cg) : Out Cg := constsToRegs (R.flatMap s.f.body) s

end Verif.Cg
