import Verif.Edit.Model
/-!
# Model of the counting passes (core/passes/jmp_complexity.c, core/passes/insn_counter_pass.c)

`rs` is `fun->reachable_bbs`.  Errors of the editing functions are returned at once; the passes do not look at them (they
cannot happen in the positive results, where the last instruction of the block stands behind the place of the split).
-/
namespace Verif.Count
open Verif Verif.IR Verif.Edit

/-- The counter, core/passes/jmp_complexity.c:27-31 and core/passes/insn_counter_pass.c:86-90: the new variable is
`f.next`, set to zero at the start of the entry block. -/
def setup (f : Fn) : Out Fn := do
  let a := f.next
  let f1 := createBb f (mkAlloc .t32) f.entry .front
  createAt f1 (mkStore a (const32 0)) a .back

/-- Counting in front of the jump `x`: add `v` to the variable `a` and leave if the sum is above `lim`.
core/passes/jmp_complexity.c:35-53 and core/passes/insn_counter_pass.c:51-67 -/
def bump (f : Fn) (x a : Nat) (v : Val) (lim : BitVec 32) : Out Fn := do
  let l := f.next
  let f1 ← createAt f (mkLoad (.insn a)) x .front
  let ad := f1.next
  let f2 ← createAt f1 (mkBin .add .w64 (.insn l) v) l .back
  let s := f2.next
  let f3 ← createAt f2 (mkStore a (.insn ad)) ad .back
  let r ← errorBlock f3 s .back
  createAt r.2.2 (mkJbin .jgt .w64 (.insn ad) (const32 lim) r.1 r.2.1) s .back

/-- Counting at the end of a block without a jump, core/passes/insn_counter_pass.c:24-48.  The first line is the
assertion `DBGASSERT(bb->succs.num_elem == 1)`. -/
def bumpEnd (f : Fn) (b a : Nat) (v : Val) (lim : BitVec 32) : Out Fn :=
  match f.succs b with
  | [t] => do
    let l := f.next
    let f1 := createBb f (mkLoad (.insn a)) b .back
    let ad := f1.next
    let f2 ← createAt f1 (mkBin .add .w64 (.insn l) v) l .back
    let s := f2.next
    let f3 ← createAt f2 (mkStore a (.insn ad)) ad .back
    let e := freshBb f3
    let f4 := createBb (newBb f3) mkThrow e .back
    let f5 ← createAt f4 (mkJbin .jgt .w64 (.insn ad) (const32 lim) t e) s .back
    .ok (connect f5 b e)
  | _ => .crit

/-! ## The jump counter -/

/-- The jumps, core/passes/jmp_complexity.c:11-23 -/
def jumps (rs : List Nat) (f : Fn) : List Nat := rs.flatMap fun b => (f.body b).filter fun x => isJmp (f.insn x).op

def bumpAll (a : Nat) (lim : BitVec 32) : List Nat → Fn → Out Fn
  | [], f => .ok f
  | x :: xs, f => do
    let g ← bump f x a (const32 1) lim
    bumpAll a lim xs g

/-- `bpf_ir_jmp_complexity`, core/passes/jmp_complexity.c:6-56 -/
def jmpComplexity (rs : List Nat) (f : Fn) : Out Fn :=
  match jumps rs f with
  | [] => .ok f
  | x :: xs => do
    let f1 ← setup f
    bumpAll f.next 100 (x :: xs) f1

/-! ## The instruction counter -/

/-- The number of instructions of the block, filled in later. -/
def cntVal : Val := .const .plain (-1) .w32 .bbInsnCnt

/-- `add_counter_to_bb`, core/passes/insn_counter_pass.c:18-71 -/
def addCounter (f : Fn) (b a : Nat) (lim : BitVec 32) : Out Fn :=
  match (f.body b).getLast? with
  | none => bumpEnd f b a cntVal lim
  | some x => if isJmp (f.insn x).op then bump f x a cntVal lim else bumpEnd f b a cntVal lim

/-- `en_pred_num`, core/passes/insn_counter_pass.c:4-11 -/
def enPredNum (f : Fn) (b : Nat) : Nat := if f.entry = b then (f.preds b).length + 1 else (f.preds b).length

/-- The blocks that get a counter in accurate mode, core/passes/insn_counter_pass.c:94-115; `flag` keeps a block from being
listed twice. -/
def critical (rs : List Nat) (f : Fn) : List Nat :=
  rs.foldl (fun l b => if 1 < enPredNum f b then (f.preds b).foldl pushU l else l) []

def addAll (a : Nat) (lim : BitVec 32) : List Nat → Fn → Out Fn
  | [], f => .ok f
  | b :: bs, f => do
    let g ← addCounter f b a lim
    addAll a lim bs g

/-- The loop of the fast mode, core/passes/insn_counter_pass.c:126-134 -/
def addFast (a : Nat) (lim : BitVec 32) : List Nat → Fn → Out Fn
  | [], f => .ok f
  | b :: bs, f =>
    if (f.preds b).length ≤ 1 then addFast a lim bs f
    else do
      let g ← addCounter f b a lim
      addFast a lim bs g

/-- `insn_counter`, core/passes/insn_counter_pass.c:73-137 -/
def insnCounter (rs : List Nat) (accurate : Bool) (lim : BitVec 32) (f : Fn) : Out Fn := do
  let f1 ← setup f
  if accurate then addAll f.next lim (critical rs f1) f1 else addFast f.next lim rs f1

/-! ## The number of instructions of a block -/

/-- `bb_insn_cnt`, core/ir_cg_norm.c:1084-1097 -/
def insnCnt (f : Fn) (b : Nat) : Nat := ((f.body b).filter fun x => (f.insn x).op ≠ .alloc ∧ (f.insn x).op ≠ .allocarray).length

def fillVal (c : BitVec 64) : Val → Val
  | .const .plain _ ct .bbInsnCnt => .const .plain c ct .bbInsnCnt
  | v => v

/-- `replace_builtin_const`, core/ir_cg_norm.c:1117-1148, as it would act on the function after the pass (in the compiler it
runs at the end, on the flattened code); the other builtin constant, `IR_BUILTIN_BB_INSN_CRITICAL_CNT`, is not made by
any pass and left out. -/
def replaceBuiltin (rs : List Nat) (f : Fn) : Fn :=
  { f with insn := fun x => if x ∈ rs.flatMap f.body then mapOps (fillVal (BitVec.ofNat 64 (insnCnt f (f.parent x)))) (f.insn x) else f.insn x }

end Verif.Count
