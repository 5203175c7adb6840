import Verif.Edit.Model
/-!
# Model of the stack sanitizer (core/passes/msan.c)

`rs` is `fun->reachable_bbs`.  `is_sp_access` calls itself; `k` bounds the depth of these calls, and going deeper is
undefined behaviour (the C stack overflows).
-/
namespace Verif.Msan
open Verif Verif.IR Verif.Edit

/-- One operand, core/passes/msan.c:63-74: `p` is the recursive call. -/
def sub (p : Nat → Out Bool) : Val → Out Bool
  | .insn y => p y
  | _ => .ok false

/-- `is_sp_access`, core/passes/msan.c:56-77 -/
def isSp (f : Fn) : Nat → Nat → Out Bool
  | 0, _ => .ub
  | k + 1, x =>
    if x = f.sp then .ok true
    else if (f.insn x).op.binAlu then
      match (f.insn x).vals with
      | [v, w] =>
        match sub (isSp f k) v with
        | .ok true => .ok true
        | .ok false => sub (isSp f k) w
        | .err => .err
        | .crit => .crit
        | .ub => .ub
      | _ => .ub
    else .ok false

/-- The condition of both loops, core/passes/msan.c:114-115, 122-123 -/
def onSp (k : Nat) (f : Fn) (x : Nat) : Out Bool :=
  match (f.insn x).addr with
  | .insn y => isSp f k y
  | _ => .ok false

/-- The instruction made by `modify_storeraw`, core/passes/msan.c:13-16 -/
def shadowStore (i : Insn) : Insn := mkStoreraw i.vrType i.addr (i.addrOff + 256) i.addrKind (const32 0)

/-- The instruction made by `modify_loadraw`, core/passes/msan.c:34-36 -/
def shadowLoad (i : Insn) : Insn := mkLoadraw i.vrType i.addr (i.addrOff + 256) i.addrKind

/-- One round of a loop, core/passes/msan.c:113-117, 121-125 -/
def shade (k : Nat) (mk : Insn → Insn) (f : Fn) (x : Nat) : Out Fn := do
  let t ← onSp k f x
  match t with
  | true => createAt f (mk (f.insn x)) x .back
  | false => .ok f

/-- A loop, core/passes/msan.c:111-118, 119-126 -/
def shadeAll (k : Nat) (mk : Insn → Insn) : List Nat → Fn → Out Fn
  | [], f => .ok f
  | x :: xs, f => do
    let g ← shade k mk f x
    shadeAll k mk xs g

/-- The stores that fill the shadow area, core/passes/msan.c:103-108 -/
def fill (a : Nat) (i : Nat) : Insn := mkStoreraw .t64 (.insn a) (BitVec.ofNat 16 (i * 8)) .plain (const64 (-1))

/-- The loop over them, core/passes/msan.c:103-108 -/
def fillAll (a : Nat) : List Nat → Fn → Out Fn
  | [], f => .ok f
  | i :: is, f => do
    let g ← createAt f (fill a i) a .back
    fillAll a is g

/-- The instructions with operation `o`, core/passes/msan.c:86-98 -/
def collect (o : Op) (rs : List Nat) (f : Fn) : List Nat := rs.flatMap fun b => (f.body b).filter fun x => (f.insn x).op = o

/-- `msan`, core/passes/msan.c:79-130 -/
def msan (k : Nat) (rs : List Nat) (f : Fn) : Out Fn := do
  let f0 := createBb f (mkAllocarray .t64 32) f.entry .frontAfterPhi
  let f1 ← fillAll f.next (List.range 32) f0
  let f2 ← shadeAll k shadowStore (collect .storeraw rs f) f1
  shadeAll k shadowLoad (collect .loadraw rs f) f2

end Verif.Msan
