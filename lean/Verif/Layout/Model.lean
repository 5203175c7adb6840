import Verif.Base
/-!
# Model of block layout (core/bpf_ir.c: gen_bb_succ, find_chain_head, add_reach, gen_end_bbs)

Basic blocks are numbers (pointers in C); a graph gives for every block its `succs` and `preds` arrays
and what its last instruction is.  `while` loops and recursion take a step bound; `none` means the bound
was too small, so "for some bound the result is `some r`" is "the C code returns `r`".
Simplification: the flag `_visited` (cleared before the traversal, set exactly when a block is pushed)
is membership in the output.
-/
namespace Verif.Layout
open Verif

/-- The last instruction of a block, as far as layout looks at it. -/
inductive Last where
  | none
  | ja (t : Nat)
  | cond (bb1 bb2 : Nat)
  | other
  deriving Repr, DecidableEq, Inhabited

structure Blk where
  succs : List Nat
  preds : List Nat
  last : Last
  deriving Repr, DecidableEq, Inhabited

abbrev Graph := Nat → Blk

/-- The target when the last instruction is `JA`. -/
def Blk.jaTo (b : Blk) : Option Nat := match b.last with | .ja t => some t | _ => Option.none

/-- `gen_bb_succ` on one block, core/bpf_ir.c:1590-1624 -/
def fixSucc (b : Blk) : Out Blk :=
  match b.last with
  | .cond t f =>
    match b.succs with
    | [_, _] => .ok { b with succs := [t, f] }
    | _ => .err
  | .ja t =>
    match b.succs with
    | [_] => .ok { b with succs := [t] }
    | _ => .err
  | _ => .ok b

/-- `gen_bb_succ`, core/bpf_ir.c:1586-1625: visits `all_bbs` in order. -/
def genSucc (g : Graph) : List Nat → Out Graph
  | [] => .ok g
  | b :: bs => do
    let x ← fixSucc (g b)
    genSucc (fun c => if c = b then x else g c) bs

/-- The loop over `bb->preds` in `find_chain_head`, core/bpf_ir.c:1633-1664; outer `none` is the
`return NULL`. -/
def pickPred (g : Graph) (bb : Nat) : List Nat → Option Nat → Option (Option Nat)
  | [], p => some p
  | b2 :: r, p =>
    match (g b2).succs with
    | [_] =>
      if (g b2).jaTo.isSome then pickPred g bb r p
      else if p.isSome then none
      else pickPred g bb r (some b2)
    | [s0, _] =>
      if s0 = bb then
        if p.isSome then none else pickPred g bb r (some b2)
      else pickPred g bb r p
    | _ => none

/-- `find_chain_head`, core/bpf_ir.c:1628-1671; the inner `none` is NULL. -/
def chainHead (g : Graph) : Nat → Nat → Option (Option Nat)
  | 0, _ => none
  | n + 1, bb =>
    if (g bb).preds = [] then some (some bb)
    else
      match pickPred g bb (g bb).preds none with
      | none => some none
      | some none => some (some bb)
      | some (some p) => chainHead g n p

/-- Inner `while` of `add_reach`, core/bpf_ir.c:1699-1729; result: `reachable_bbs` and the entries
appended to `todo`. -/
def visit (g : Graph) : Nat → Nat → List Nat → List Nat → Option (Out (List Nat × List Nat))
  | 0, _, _, _ => none
  | n + 1, bb, out, todo =>
    let out := out ++ [bb]
    match (g bb).succs with
    | [] => some (.ok (out, todo))
    | [s] =>
      match (g bb).jaTo with
      | some t => some (.ok (out, todo ++ [t]))
      | none => visit g n s out todo
    | [s0, s1] => visit g n s0 out (todo ++ [s1])
    | _ => some .err

/-- Outer `while` of `add_reach`, core/bpf_ir.c:1679-1731; `todo` is the part of the queue from
`queue_head` on. -/
def reach (g : Graph) : Nat → List Nat → List Nat → Option (Out (List Nat))
  | 0, _, _ => none
  | _ + 1, [], out => some (.ok out)
  | n + 1, bb :: todo, out =>
    if bb ∈ out then reach g n todo out
    else
      match chainHead g n bb with
      | none => none
      | some none => some .err
      | some (some h) =>
        if h ∈ out then some .crit
        else
          match visit g n h out todo with
          | none => none
          | some (.ok (out', todo')) => reach g n todo' out'
          | some .err => some .err
          | some .crit => some .crit
          | some .ub => some .ub

/-- `gen_reachable_bbs`, core/bpf_ir.c:1736-1747 -/
def layout (g : Graph) (fuel entry : Nat) : Option (Out (List Nat)) := reach g fuel [entry] []

/-- `gen_end_bbs`, core/bpf_ir.c:1749-1760 -/
def endBbs (g : Graph) (l : List Nat) : List Nat := l.filter (fun b => (g b).succs.length == 0)

end Verif.Layout
