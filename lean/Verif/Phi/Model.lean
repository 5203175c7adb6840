import Verif.Edit.Model
/-!
# Model of the removal of trivial phis (core/passes/phi_pass.c)

`rs` is `fun->reachable_bbs`.  `list_for_each_entry_safe` takes the next element before the body of the loop runs and the
body erases the current element only, so the loop runs over the list as it was.
-/
namespace Verif.Phi
open Verif Verif.IR Verif.Edit

/-- The loop over the operands, core/passes/phi_pass.c:11-26: `none` if the function returns false, otherwise `same`. -/
def scan (x : Nat) : Option Val → List (Nat × Val) → Option (Option Val)
  | same, [] => some same
  | same, (_, .insn y) :: r =>
    if same = some (.insn y) ∨ y = x then scan x same r
    else if same.isSome then none
    else scan x (some (.insn y)) r
  | same, (_, w) :: r => if same.isSome then none else scan x (some w) r

/-- `try_remove_trivial_phi`, core/passes/phi_pass.c:4-38 -/
def tryRemove (f : Fn) (x : Nat) : Out (Bool × Fn) :=
  match scan x none (f.insn x).phi with
  | none => .ok (false, f)
  | some none => .err
  | some (some v) =>
    match erase (replaceExcept f x v x) x with
    | .ok g => .ok (true, g)
    | .err => .err
    | .crit => .crit
    | .ub => .ub

/-- The inner loop, core/passes/phi_pass.c:51-58 -/
def sweep : List Nat → Bool × Fn → Out (Bool × Fn)
  | [], s => .ok s
  | x :: xs, s =>
    if (s.2.insn x).op = .phi then
      match tryRemove s.2 x with
      | .ok (c, g) => sweep xs (s.1 || c, g)
      | .err => .err
      | .crit => .crit
      | .ub => .ub
    else sweep xs s

/-- The loop over the blocks, core/passes/phi_pass.c:47-59 -/
def sweepAll : List Nat → Bool × Fn → Out (Bool × Fn)
  | [], s => .ok s
  | b :: bs, s =>
    match sweep (s.2.body b) s with
    | .ok s => sweepAll bs s
    | .err => .err
    | .crit => .crit
    | .ub => .ub

/-- `remove_trivial_phi`, core/passes/phi_pass.c:40-61; `crit` if it needs more than `k` rounds. -/
def removeTrivial (rs : List Nat) : Nat → Fn → Out Fn
  | 0, _ => .crit
  | k + 1, f =>
    match sweepAll rs (false, f) with
    | .ok (true, g) => removeTrivial rs k g
    | .ok (false, g) => .ok g
    | .err => .err
    | .crit => .crit
    | .ub => .ub

end Verif.Phi
