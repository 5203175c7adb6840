import Verif.Base
import Verif.Spec.Bpf
/-!
# Model of the construction of basic blocks from bytecode (core/bpf_ir.c:247-558)

A block is identified by its index in the sorted `all_bbs` array.  Positions are natural numbers
(`size_t`); a negative position would be used as an index far outside the array and is `ub`.
-/
namespace Verif.GenBB
open Verif Verif.Bpf

/-- `BPF_CLASS(code)` -/
def cls (c : BitVec 8) : Nat := c.toNat % 8
/-- `BPF_OP(code) >> 4` -/
def opc (c : BitVec 8) : Nat := c.toNat / 16

/-- Class JMP or JMP32. -/
def isJmp (c : BitVec 8) : Bool := cls c == 5 || cls c == 6

/-- Conditional jumps as tested in `gen_bb`, core/bpf_ir.c:375-378 -/
def isCond (c : BitVec 8) : Bool :=
  isJmp c && ((1 ≤ opc c && opc c ≤ 7) || (0xa ≤ opc c && opc c ≤ 0xd))

def isJa (c : BitVec 8) : Bool := isJmp c && opc c == 0
def isExit (c : BitVec 8) : Bool := isJmp c && opc c == 9

/-- `is_raw_insn_breakpoint`, core/bpf_ir.c:247-260 -/
def isBreak (c : BitVec 8) : Bool := isJmp c && opc c != 8

/-- Removal of conditional jumps with offset 0, core/bpf_ir.c:370-392 -/
def zeroJump (s : Slot) : Slot := if isCond s.code && s.off == 0 then ⟨5, 0, 0, 0, 0⟩ else s

/-- `struct bb_entrance_info` during the scan: position and predecessor positions. -/
structure Ent where
  pos : Nat
  preds : List Nat
  deriving Repr, DecidableEq, Inhabited

/-- The search loop of `add_entrance_info`, core/bpf_ir.c:270-278 -/
def addTo (pos cur : Nat) : List Ent → Option (List Ent)
  | [] => none
  | e :: es =>
    if e.pos = pos then some ({ e with preds := e.preds ++ [cur] } :: es)
    else (addTo pos cur es).map (e :: ·)

/-- `push_unique` -/
def pushU (l : List Nat) (x : Nat) : List Nat := if x ∈ l then l else l ++ [x]

/-- `add_entrance_info`, core/bpf_ir.c:263-298.  The position comes in as the (signed) value that is
converted to `size_t`. -/
def addEnt (P : List Slot) (es : List Ent) (pos : Int) (cur : Nat) : Out (List Ent) :=
  match pos with
  | .negSucc _ => .ub
  | .ofNat pos =>
    match addTo pos cur es with
    | some es' => .ok es'
    | none =>
      if pos ≥ 1 then
        match P[pos - 1]? with
        | none => .ub
        | some s => .ok (es ++ [⟨pos, pushU (if isBreak s.code then [] else pushU [] (pos - 1)) cur⟩])
      else .ok (es ++ [⟨pos, pushU [] cur⟩])

/-- `init_entrance_info`, core/bpf_ir.c:325-344 -/
def initEnt (es : List Ent) (pos : Nat) : List Ent :=
  if es.any (fun e => e.pos == pos) then es else es ++ [⟨pos, []⟩]

/-- `(s16)i + insn->off + 1`, core/bpf_ir.c:406 and 423 -/
def target (i : Nat) (off : BitVec 16) : Int := (BitVec.ofNat 16 i).toInt + off.toInt + 1

/-- Body of the scan, core/bpf_ir.c:395-446 -/
def scanInsn (P : List Slot) (es : List Ent) (i : Nat) (s : Slot) : Out (List Ent) :=
  if isJa s.code then
    if cls s.code = 5 then addEnt P es (target i s.off) i else .err
  else if isCond s.code then do
    let es ← addEnt P es (target i s.off) i
    addEnt P es (i + 1 : Nat) i
  else if isExit s.code then
    if i + 1 < P.length then .ok (initEnt es (i + 1)) else .ok es
  else .ok es

def scan (P : List Slot) : List Ent → Nat → List Slot → Out (List Ent)
  | es, _, [] => .ok es
  | es, i, s :: rest => do
    let es ← scanInsn P es i s
    scan P es (i + 1) rest

/-- `qsort` by `entrance`; entries with equal entrance keep their order (the C library leaves their
order open). -/
def insertEnt (e : Ent) : List Ent → List Ent
  | [] => [e]
  | f :: es => if e.pos ≤ f.pos then e :: f :: es else f :: insertEnt e es

def sortEnts : List Ent → List Ent
  | [] => []
  | e :: es => insertEnt e (sortEnts es)

/-- End of a block: one past the first jump or exit, core/bpf_ir.c:484-502 -/
def isEnd (c : BitVec 8) : Bool := isJa c || isCond c || isExit c

/-- The loop over `j` in [j, j+k); positions are inside the program (`ents_le` in the lemmas). -/
def endPos (P : List Slot) : Nat → Nat → Nat
  | 0, j => j
  | k + 1, j =>
    match P[j]? with
    | some s => if isEnd s.code then j + 1 else endPos P k (j + 1)
    | none => endPos P k (j + 1)

/-- Block ranges, core/bpf_ir.c:473-506: start, end and predecessor positions. -/
def cut (P : List Slot) : List Ent → List (Nat × Nat × List Nat)
  | [] => []
  | [e] => [(e.pos, endPos P (P.length - e.pos) e.pos, e.preds)]
  | e :: f :: es => (e.pos, endPos P (f.pos - e.pos) e.pos, e.preds) :: cut P (f :: es)

/-- `struct pre_ir_insn` -/
structure PreInsn where
  slot : Slot
  wide : Bool
  imm64 : BitVec 64
  pos : Nat
  deriving Repr, DecidableEq, Inhabited

/-- `to_s64`, core/bpf_ir.c:360-364 -/
def toS64 (imm nextImm : BitVec 32) : BitVec 64 :=
  (nextImm.signExtend 64 <<< 32) ||| (imm.signExtend 64 &&& 0xFFFFFFFF)

/-- Reading the instructions of [pos, stop), core/bpf_ir.c:517-540; the first argument bounds the
number of iterations (`stop - pos` are enough). -/
def readInsns (P : List Slot) (stop : Nat) : Nat → Nat → List PreInsn
  | 0, _ => []
  | k + 1, pos =>
    if pos < stop then
      let s := P[pos]!
      if pos + 1 < stop && (P[pos + 1]!).code == 0 then
        ⟨s, true, toS64 s.imm (P[pos + 1]!).imm, pos⟩ :: readInsns P stop k (pos + 2)
      else ⟨s, false, s.imm.signExtend 64 &&& 0xFFFFFFFF, pos⟩ :: readInsns P stop k (pos + 1)
    else []

/-- `get_bb_parent`, core/bpf_ir.c:301-323: index of the block containing a position. -/
def parent (rs : List (Nat × Nat × List Nat)) (pos : Nat) : Option Nat :=
  let id := (rs.tail.takeWhile (fun r => r.1 ≤ pos)).length
  match rs[id]? with
  | some r => if pos ≥ r.2.1 then none else some id
  | none => none

/-- A finished block. -/
structure Blk where
  start : Nat
  stop : Nat
  insns : List PreInsn
  preds : List Nat
  succs : List Nat
  deriving Repr, DecidableEq, Inhabited

/-- Predecessor blocks, core/bpf_ir.c:541-556 -/
def predIds (rs : List (Nat × Nat × List Nat)) (r : Nat × Nat × List Nat) : List Nat :=
  r.2.2.filterMap (parent rs)

/-- Successors of block `k`: one push per predecessor entry, in the order of the outer loop. -/
def succIds (rs : List (Nat × Nat × List Nat)) (k : Nat) : List Nat :=
  (rs.zipIdx).flatMap (fun r => ((predIds rs r.1).filter (· == k)).map (fun _ => r.2))

def build (P : List Slot) (rs : List (Nat × Nat × List Nat)) : List Blk :=
  (rs.zipIdx).map (fun r =>
    { start := r.1.1, stop := r.1.2.1, insns := readInsns P r.1.2.1 (r.1.2.1 - r.1.1) r.1.1,
      preds := predIds rs r.1, succs := succIds rs r.2 })

/-- `gen_bb`, core/bpf_ir.c:366-558.  The entry is block 0. -/
def genBB (P : List Slot) : Out (List Blk) := do
  let P := P.map zeroJump
  let es ← scan P [] 0 P
  Out.ok (build P (cut P (sortEnts (es ++ [⟨0, []⟩]))))

end Verif.GenBB
