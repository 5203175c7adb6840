import Verif.Edit.Model
import Verif.Spec.Held
/-!
# Model of the throw translation (core/passes/translate_throw.c)

`rs` is `fun->reachable_bbs`.  `translate_throw` is the pass the compiler runs (core/ir_cg.c:18); `translate_throw_df` is in
the same file and not called.  Lists of instructions stand for the arrays.
-/
namespace Verif.Throw
open Verif Verif.IR Verif.Edit

/-- The pass of the compiler, `translate_throw`, core/passes/translate_throw.c:307-323 -/
def translateThrow (rs : List Nat) (f : Fn) : Fn :=
  { f with insn := fun x => if x ∈ rs.flatMap f.body ∧ (f.insn x).op = .throw then { f.insn x with op := .ret, vals := [const32 1] } else f.insn x }

/-! ## The data flow analysis -/

/-- GEN, core/passes/translate_throw.c:200-205 -/
def gens (f : Fn) (b : Nat) : List Nat := (f.body b).filter fun x => isReserve (f.insn x)

/-- KILL, core/passes/translate_throw.c:206-222 -/
def kills (f : Fn) (b : Nat) : List Nat :=
  (f.body b).filterMap fun x => if isRelease (f.insn x) then (match (f.insn x).vals.head? with | some (.insn y) => some y | _ => none) else none

/-- The cases that raise no error, core/passes/translate_throw.c:206-233: the released value is a reservation. -/
def supported (f : Fn) (b : Nat) : Bool :=
  (f.body b).all fun x => !isRelease (f.insn x) || (match (f.insn x).vals.head? with | some (.insn y) => isReserve (f.insn y) | _ => false)

/-- The `in` and `out` arrays of `struct bb_extra`. -/
structure Sets where
  inn : Nat → List Nat
  out : Nat → List Nat

/-- `equal_set`, core/passes/translate_throw.c:51-65 -/
def equalSet (a b : List Nat) : Bool := a.length == b.length && a.all (fun x => decide (x ∈ b))

/-- The intersection over the predecessors, core/passes/translate_throw.c:249-269 -/
def meet (s : Sets) : List Nat → List Nat
  | [] => []
  | p :: ps => ps.foldl (fun l q => l.filter fun x => decide (x ∈ s.out q)) (s.out p)

/-- One block, core/passes/translate_throw.c:245-284 -/
def visit (f : Fn) (sc : Sets × Bool) (b : Nat) : Sets × Bool :=
  let s := sc.1
  let new := meet s (f.preds b)
  let out := ((gens f b).foldl pushU new).filter fun x => decide (x ∉ kills f b)
  ({ inn := upd s.inn b new, out := upd s.out b out }, sc.2 || !equalSet (s.inn b) new)

/-- One round of the `while` loop, core/passes/translate_throw.c:241-285 -/
def round (rs : List Nat) (f : Fn) (s : Sets) : Sets × Bool := rs.foldl (visit f) (s, false)

/-- The `while` loop; `none` if it takes more than `n` rounds. -/
def solve (rs : List Nat) (f : Fn) : Nat → Sets → Option Sets
  | 0, _ => none
  | n + 1, s =>
    let r := round rs f s
    if r.2 then solve rs f n r.1 else some r.1

/-! ## The translation -/

/-- The calls of `bpf_ringbuf_discard`, core/passes/translate_throw.c:125-145 -/
def discards (x : Nat) : List Nat → Fn → Out Fn
  | [], f => .ok f
  | r :: rs, f => do
    let c := f.next
    let f1 ← createAt f (mkCall 0x85) x .front
    let f2 ← addCallArg f1 c (.insn r)
    let f3 ← addCallArg f2 c (const32 0)
    discards x rs f3

/-- The message, core/passes/translate_throw.c:147-177 -/
def message (x : Nat) (f : Fn) : Out Fn := do
  let a := f.next
  let f1 ← createAt f (mkAllocarray .t64 1) x .front
  let s1 := f1.next
  let f2 ← createAt f1 (mkStoreraw .t8 (.insn a) 4 .plain (const32 0)) a .back
  let s2 := f2.next
  let f3 ← createAt f2 (mkStoreraw .t32 (.insn a) 0 .plain (const32 0x74697865)) s1 .back
  let e := f3.next
  let f4 ← createAt f3 (mkGetelemptr a (const32 0)) s2 .back
  let c := f4.next
  let f5 ← createAt f4 (mkCall 6) e .back
  let f6 ← addCallArg f5 c (.insn e)
  addCallArg f6 c (const32 5)

/-- One throw, core/passes/translate_throw.c:115-181 -/
def transOne (msg : Bool) (outs : List Nat) (x : Nat) (f : Fn) : Out Fn := do
  let f1 ← discards x outs f
  let f2 ← if msg then message x f1 else .ok f1
  .ok { f2 with insn := upd f2.insn x { f2.insn x with op := .ret, vals := [const32 0] } }

def transAll (msg : Bool) (out : Nat → List Nat) : List Nat → Fn → Out Fn
  | [], f => .ok f
  | x :: xs, f => do
    let g ← transOne msg (out (f.parent x)) x f
    transAll msg out xs g

/-- The throws at the ends of blocks, core/passes/translate_throw.c:103-112 -/
def throws (rs : List Nat) (f : Fn) : List Nat :=
  rs.filterMap fun b => match (f.body b).getLast? with | some x => if (f.insn x).op = .throw then some x else none | none => none

/-- `bpf_ir_array_null` everywhere. -/
def start : Sets := { inn := fun _ => [], out := fun _ => [] }

/-- Enough rounds for the loop to end (`solve_ends`). -/
def rounds (rs : List Nat) (f : Fn) : Nat := rs.length * (rs.flatMap (gens f)).length + 1

/-- `translate_throw_df`, core/passes/translate_throw.c:188-305.  A predecessor that is not listed as reachable has no
`bb_extra`: the null pointer is dereferenced. -/
def translateDf (msg : Bool) (rs : List Nat) (f : Fn) : Out Fn :=
  if rs.all (supported f) then
    if rs.all (fun b => (f.preds b).all fun p => decide (p ∈ rs)) then
      match solve rs f (rounds rs f) start with
      | some s => transAll msg s.out (throws rs f) f
      | none => .crit
    else .ub
  else .err

end Verif.Throw
