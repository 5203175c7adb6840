import Verif.Edit.Model
/-!
# Model of code compaction (core/passes/code_compaction.c)

`rs` is `fun->reachable_bbs`.
-/
namespace Verif.Compact
open Verif Verif.IR Verif.Edit

def isInsn : Option Val → Bool
  | some (.insn _) => true
  | _ => false

/-- The constant of an operand of type `IR_VALUE_CONSTANT`. -/
def constOf : Option Val → Option (BitVec 64)
  | some (.const .plain c _ _) => some c
  | _ => none

/-- The body of the loop, core/passes/code_compaction.c:19-45.  The state is `prev_insn` and the array `opt_insns`; the
two `continue` leave `prev_insn` alone.  A missing operand counts as not constant (the C code reads whatever the unused
slot holds). -/
def look (f : Fn) (s : Option Nat × List Nat) (c : Nat) : Option Nat × List Nat :=
  match s.1 with
  | none => (some c, s.2)
  | some p =>
    if (f.insn p).op = .lsh ∧ (f.insn c).op = .rsh then
      if constOf ((f.insn p).vals[1]?) = none ∨ constOf ((f.insn c).vals[1]?) = none then s
      else if constOf ((f.insn p).vals[1]?) ≠ some 32 ∨ constOf ((f.insn c).vals[1]?) ≠ some 32 then s
      else if isInsn ((f.insn p).vals[0]?) = true ∧ (f.insn c).vals[0]? = some (.insn p) then (some c, s.2 ++ [c])
      else (some c, s.2)
    else (some c, s.2)

/-- The two loops, core/passes/code_compaction.c:15-46 -/
def find (rs : List Nat) (f : Fn) : List Nat := ((rs.flatMap f.body).foldl (look f) (none, [])).2

/-- What becomes of the right shift, core/passes/code_compaction.c:62-66 -/
def toAssign (i : Insn) : Insn := { i with op := .assign, vrType := .t32, aluOp := .w32, vals := i.vals.take 1 }

/-- The body of the second loop, core/passes/code_compaction.c:53-67.  The C code goes on after an error of
`bpf_ir_erase_insn`; the error stays in `env->err` and the pass has failed. -/
def compactOne (f : Fn) (c : Nat) : Out Fn :=
  match ((f.insn c).vals[0]? : Option Val) with
  | some (.insn p) =>
    match ((f.insn p).vals[0]? : Option Val) with
    | some v =>
      match changeValue f c (.val 0) v with
      | .ok g => erase { g with insn := upd g.insn c (toAssign (g.insn c)) } p
      | .err => .err
      | .crit => .crit
      | .ub => .ub
    | none => .ub
  | _ => .ub

def compactAll : List Nat → Fn → Out Fn
  | [], f => .ok f
  | c :: cs, f =>
    match compactOne f c with
    | .ok g => compactAll cs g
    | .err => .err
    | .crit => .crit
    | .ub => .ub

/-- `bpf_ir_optimize_code_compaction`, core/passes/code_compaction.c:6-69 -/
def compact (rs : List Nat) (f : Fn) : Out Fn := compactAll (find rs f) f

end Verif.Compact
