import Verif.RA.Model
import Verif.Edit.Model
/-!
# Model of the liveness and conflict analyses (core/ir_cg.c:399-790)

`make_conflict` only reads the places of the values, which the analyses do not change, so the model collects the calls
of `make_conflict` in a list (`reqs`) in the order they are made; `RA.conflicts` performs them.
-/
namespace Verif.Live
open Verif Verif.IR

/-- The sets `in`, `out` of each instruction (core/include/ir_cg.h:92-93), the visited blocks `M`, the conflicts. -/
structure L where
  inn : Nat → List Nat
  out : Nat → List Nat
  M : List Nat
  reqs : List (Nat × Nat)

def L.empty : L := ⟨fun _ => [], fun _ => [], [], []⟩

def insAt (g : Nat → List Nat) (s v : Nat) : Nat → List Nat := fun x => if x = s then RA.ins (g x) v else g x

/-- `live_out_at_statement` and the part of `live_in_at_statement` inside a block, core/ir_cg.c:494-531: `rev` are the
instructions still before, last first.  The second component says whether the top of the block was reached. -/
def walk (dst : Nat → Option Nat) (v : Nat) : List Nat → L → L × Bool
  | [], l => (l, true)
  | s :: pre, l =>
    let l1 := { l with out := insAt l.out s v }
    match dst s with
    | some d =>
      if d = v then (l1, false)
      else walk dst v pre { l1 with reqs := l1.reqs ++ [(v, d)], inn := insAt l1.inn s v }
    | none => walk dst v pre { l1 with inn := insAt l1.inn s v }

/-- A loop that stops at the first failure. -/
def each {α : Type} (g : α → L → Out L) : List α → L → Out L
  | [], l => .ok l
  | a :: as, l => do
    let l' ← g a l
    each g as l'

/-- `live_out_at_block`, core/ir_cg.c:473-492; out of fuel would be a call depth above the number of blocks. -/
def outBlock (f : Fn) (dst : Nat → Option Nat) (v : Nat) : Nat → Nat → L → Out L
  | 0, _, _ => .ub
  | k + 1, n, l =>
    if n ∈ l.M then .ok l
    else
      let r := walk dst v (f.body n).reverse { l with M := n :: l.M }
      if r.2 then each (outBlock f dst v k) (f.preds n) r.1 else .ok r.1

def depth (f : Fn) : Nat := f.allBbs.length + 1

/-- The instructions of the block of `s` before `s`, last first. -/
def before (f : Fn) (s : Nat) : List Nat := ((f.body (f.parent s)).takeWhile (· ≠ s)).reverse

/-- `live_in_at_statement`, core/ir_cg.c:513-531 -/
def inStmt (f : Fn) (dst : Nat → Option Nat) (v s : Nat) (l : L) : Out L :=
  let r := walk dst v (before f s) { l with inn := insAt l.inn s v }
  if r.2 then each (outBlock f dst v (depth f)) (f.preds (f.parent s)) r.1 else .ok r.1

/-- The blocks a phi takes `v` from. -/
def phiBlocks (i : Insn) (v : Nat) : List Nat := (i.phi.filter (fun o => o.2 == .insn v)).map (·.1)

/-- One user of `v`, core/ir_cg.c:685-712 -/
def user (f : Fn) (dst : Nat → Option Nat) (v s : Nat) (l : L) : Out L :=
  if (f.insn s).op = .phi then
    if phiBlocks (f.insn s) v = [] then .crit
    else each (outBlock f dst v (depth f)) (phiBlocks (f.insn s) v) l
  else inStmt f dst v s l

/-- The body of the loop of `liveness_analysis` for the value `v`, core/ir_cg.c:673-714 -/
def value (f : Fn) (dst : Nat → Option Nat) (fin : Nat → Bool) (v : Nat) (l : L) : Out L :=
  match dst v with
  | none => .ok l
  | some d =>
    if fin v then .ok l
    else if d ≠ v then .crit
    else each (user f dst v) (f.users v) { l with M := [] }

/-- The instructions of the reachable blocks in order. -/
def insns (f : Fn) (R : List Nat) : List Nat := R.flatMap f.body

/-- `liveness_analysis`, core/ir_cg.c:664-720, for the reachable blocks `R`. -/
def liveness (f : Fn) (R : List Nat) (dst : Nat → Option Nat) (fin : Nat → Bool) : Out L :=
  each (value f dst fin) (insns f R) .empty

/-- The vertices `liveness_analysis` adds to `all_var` (core/ir_cg.c:680). -/
def vars (f : Fn) (R : List Nat) (dst : Nat → Option Nat) (fin : Nat → Bool) : List Nat :=
  (insns f R).filter (fun v => (dst v).isSome && !fin v)

/-! ## Conflicts -/

/-- `phi_conflict_at_block_no_propagate`, core/ir_cg.c:437-471: the conflicts of the phi `v` for the predecessor `n`.
The recursion through empty blocks need not end; the fuel stands for the stack. -/
def phiConf (f : Fn) (l : L) (v : Nat) : Nat → Nat → Out (List (Nat × Nat))
  | 0, _ => .ub
  | k + 1, n =>
    match (f.body n).getLast? with
    | some last =>
      let set := if Edit.isJmp (f.insn last).op then l.inn last else l.out last
      .ok ((set.filter (· ≠ v)).map (fun x => (x, v)))
    | none => (f.preds n).foldl (fun acc p => do
        let a ← acc
        let b ← phiConf f l v k p
        .ok (a ++ b)) (.ok [])

/-- The conflicts of a phi, core/ir_cg.c:753-762 -/
def phiReqs (f : Fn) (l : L) (x : Nat) : Out (List (Nat × Nat)) :=
  if (f.insn x).op = .phi then
    (f.insn x).phi.foldl (fun acc o => do
      let a ← acc
      let b ← phiConf f l x (depth f) o.1
      .ok (a ++ b)) (.ok [])
  else .ok []

/-- The conflicts of a call, core/ir_cg.c:764-778 -/
def callReqs (f : Fn) (s : RA.St) (l : L) (x : Nat) : List (Nat × Nat) :=
  if (f.insn x).op = .call then ((l.inn x).filter (· ∈ l.out x)).flatMap (RA.callerPairs s) else []

/-- The conflict of a binary operation with its second operand, core/ir_cg.c:779-786 -/
def aluReqs (f : Fn) (x : Nat) : List (Nat × Nat) :=
  match (f.insn x).op.binAlu, (f.insn x).vals with
  | true, [_, .insn y] => [(x, y)]
  | _, _ => []

/-- The conflicts of one instruction, core/ir_cg.c:751-787 -/
def insnConf (f : Fn) (s : RA.St) (l : L) (x : Nat) : Out (List (Nat × Nat)) := do
  let a ← phiReqs f l x
  .ok (a ++ callReqs f s l x ++ aluReqs f x)

/-- `conflict_analysis`, core/ir_cg.c:731-790 -/
def conflictReqs (f : Fn) (s : RA.St) (R : List Nat) (l : L) : Out (List (Nat × Nat)) :=
  (insns f R).foldl (fun acc x => do
    let a ← acc
    let b ← insnConf f s l x
    .ok (a ++ b)) (.ok (RA.regPairs s))

/-- `liveness_analysis` and `conflict_analysis` in an iteration of `bpf_ir_compile`, core/ir_cg.c:1355-1364. -/
def analyse (f : Fn) (R : List Nat) (dst : Nat → Option Nat) (s : RA.St) : Out (L × RA.St) := do
  let l ← liveness f R dst (fun v => (s.cg v).fin)
  let c ← conflictReqs f s R l
  let s' ← RA.conflicts (l.reqs ++ c) s
  .ok (l, s')

end Verif.Live
