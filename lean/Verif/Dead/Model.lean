import Verif.Edit.Model
/-!
# Model of the optimisation pass (core/passes/optimization.c)

`rs` is `fun->reachable_bbs`.  `list_for_each_entry_safe` takes the next element before the body of the loop runs, and
the body erases the current element only, so the loop runs over the list as it was.  A failed allocation of the arrays
is not modelled.
-/
namespace Verif.Dead
open Verif Verif.IR Verif.Edit

/-! ## Instructions without users -/

/-- The test, core/passes/optimization.c:15-18 -/
def removable (f : Fn) (x : Nat) : Bool := !(isVoid (f.insn x).op || (f.insn x).op = .call) && (f.users x).isEmpty

/-- The inner loop, core/passes/optimization.c:13-23: `changed` and the function. -/
def sweep : List Nat → Bool × Fn → Out (Bool × Fn)
  | [], s => .ok s
  | x :: xs, s =>
    if removable s.2 x then
      match erase s.2 x with
      | .ok g => sweep xs (true, g)
      | .err => .err
      | .crit => .crit
      | .ub => .ub
    else sweep xs s

/-- The outer loop, core/passes/optimization.c:9-24 -/
def sweepAll : List Nat → Bool × Fn → Out (Bool × Fn)
  | [], s => .ok s
  | b :: bs, s =>
    match sweep (s.2.body b) s with
    | .ok s => sweepAll bs s
    | .err => .err
    | .crit => .crit
    | .ub => .ub

/-- `remove_no_user_insn`, core/passes/optimization.c:4-28; `crit` if it needs more than `k` rounds. -/
def removeNoUser (rs : List Nat) : Nat → Fn → Out Fn
  | 0, _ => .crit
  | k + 1, f =>
    match sweepAll rs (false, f) with
    | .ok (true, g) => removeNoUser rs k g
    | .ok (false, g) => .ok g
    | .err => .err
    | .crit => .crit
    | .ub => .ub

/-! ## Variables that are never loaded -/

/-- The alloc instructions, core/passes/optimization.c:36-47 -/
def allocs (f : Fn) (rs : List Nat) : List Nat := rs.flatMap fun b => (f.body b).filter fun x => (f.insn x).op = .alloc

/-- The second loop over the users, core/passes/optimization.c:64-70.  `j` is the index of `pos3`; the array shrinks
while the loop runs because erasing a user removes it from the array, so elements are skipped.  `array_for` compares
with the current number of elements.  `k` bounds the number of rounds. -/
def dropUsers (a : Nat) : Nat → Nat → Fn → Out Fn
  | 0, _, f => .ok f
  | k + 1, j, f =>
    match (f.users a)[j]? with
    | none => .ok f
    | some u =>
      match erase f u with
      | .ok g => dropUsers a k (j + 1) g
      | .err => .err
      | .crit => .crit
      | .ub => .ub

/-- One round of core/passes/optimization.c:49-75 -/
def dropAlloc (f : Fn) (a : Nat) : Out Fn :=
  if (f.users a).any (fun u => (f.insn u).op = .load) then .ok f
  else
    match dropUsers a (f.users a).length 0 f with
    | .ok g => erase g a
    | .err => .err
    | .crit => .crit
    | .ub => .ub

def dropAllocs : List Nat → Fn → Out Fn
  | [], f => .ok f
  | a :: as, f =>
    match dropAlloc f a with
    | .ok g => dropAllocs as g
    | .err => .err
    | .crit => .crit
    | .ub => .ub

/-- `remove_unused_alloc`, core/passes/optimization.c:30-78 -/
def removeUnusedAlloc (rs : List Nat) (f : Fn) : Out Fn := dropAllocs (allocs f rs) f

end Verif.Dead
