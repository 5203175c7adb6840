import Verif.Edit.Model
/-!
# Model of the division-by-zero pass (core/passes/div_by_zero.c)

`rs` is `fun->reachable_bbs`.  An error raised by the splitting of a block is not looked at by the pass, which would go on
with a null pointer; the splitting cannot fail here because the division itself stands behind the place of the split.
-/
namespace Verif.DivZero
open Verif Verif.IR Verif.Edit

/-- The divisions, core/passes/div_by_zero.c:7-19 -/
def divs (rs : List Nat) (f : Fn) : List Nat := rs.flatMap fun b => (f.body b).filter fun x => (f.insn x).op = .div

/-- The check, core/passes/div_by_zero.c:32-43: `p` is the instruction in front of the division `d`, `v` the divisor. -/
def addCheck (f : Fn) (d p : Nat) (v : Val) : Out Fn :=
  let b := f.parent d
  let n := freshBb f
  match split f p .back with
  | .ok f1 =>
    let e := freshBb f1
    let f2 := createBb (newBb f1) mkThrow e .back
    match createAt f2 (mkJbin .jeq .w64 v (const32 0) n e) p .back with
    | .ok f3 => .ok (connect f3 b e)
    | .err => .err
    | .crit => .crit
    | .ub => .ub
  | .err => .err
  | .crit => .crit
  | .ub => .ub

/-- One round of the loop, core/passes/div_by_zero.c:23-45 -/
def checkDiv (f : Fn) (d : Nat) : Out Fn :=
  match ((f.insn d).vals[1]? : Option Val) with
  | some (.insn y) =>
    match prevInsn f d with
    | none => .ok f
    | some p => addCheck f d p (.insn y)
  | some _ => .ok f
  | none => .ub

/-- The loop, core/passes/div_by_zero.c:21-46 -/
def checkAll : List Nat → Fn → Out Fn
  | [], f => .ok f
  | d :: ds, f =>
    match checkDiv f d with
    | .ok g => checkAll ds g
    | .err => .err
    | .crit => .crit
    | .ub => .ub

/-- `bpf_ir_div_by_zero`, core/passes/div_by_zero.c:4-48 -/
def divByZero (rs : List Nat) (f : Fn) : Out Fn := checkAll (divs rs f) f

end Verif.DivZero
