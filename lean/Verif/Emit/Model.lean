import Verif.Norm.Model
import Verif.Spec.Blocks
/-!
# Model of block-level code emission (core/ir_cg_norm.c: normalize, translate, check_total_insn,
calc_pos, relocate, synthesize)

A program is the list `fun->reachable_bbs` in layout order; blocks are named by numbers (the C code
uses pointers).  Simplifications: `normalize` and `translate` are modelled as stopping at the first
failing instruction (the C loops go on after `RAISE_ERROR` but the error code stays set and
`bpf_ir_cg_norm` returns before anything is emitted).  The zero-initialisation of the output array is
that of `malloc_proto` (core/lli.c:30-37).
-/
namespace Verif.Emit
open Verif Verif.Norm Verif.Bpf

/-- One basic block after flattening (the pair of a name and a list of instructions is the one of the
specification). -/
abbrev FBlock := Flat.Block

/-- An instruction with its `translated[0..translated_num)`. -/
structure TInsn where
  insn : FInsn
  tr : List Pre
  deriving Repr, DecidableEq, Inhabited

structure TBlock where
  id : Nat
  body : List TInsn
  deriving Repr, DecidableEq, Inhabited

/-- `normalize` on one block, core/ir_cg_norm.c:598-651 -/
def normBlock (b : FBlock) : Out FBlock := do
  let is ← mapCat normInsn b.insns
  Out.ok { b with insns := is }

/-- `translate` on a list of instructions, core/ir_cg_norm.c:1177-1219 -/
def trInsns : List FInsn → Out (List TInsn)
  | [] => .ok []
  | i :: is => do
    let ps ← trInsn i
    let r ← trInsns is
    Out.ok (⟨i, ps⟩ :: r)

/-- `normalize`, `translate` on one block. -/
def lowerBlock (b : FBlock) : Out TBlock := do
  let n ← normBlock b
  let t ← trInsns n.insns
  Out.ok ⟨b.id, t⟩

def lowerBlocks : List FBlock → Out (List TBlock)
  | [] => .ok []
  | b :: bs => do
    let t ← lowerBlock b
    let ts ← lowerBlocks bs
    Out.ok (t :: ts)

/-- `check_total_insn`, core/ir_cg_norm.c:1151-1168 -/
def checkTotal (bs : List TBlock) : Out Unit :=
  if (bs.map (fun b => (b.body.map (fun i => i.tr.length)).sum)).sum ≥ 1000000 then .err else .ok ()

/-! ## Positions -/

/-- A machine instruction with its `pos` field. -/
abbrev PPre := Nat × Pre

structure PInsn where
  insn : FInsn
  tr : List PPre
  deriving Repr, DecidableEq, Inhabited

/-- `pos` is `bb_cg(bb)->pos` -/
structure PBlock where
  id : Nat
  pos : Nat
  body : List PInsn
  deriving Repr, DecidableEq, Inhabited

/-- The increment of `ipos`, core/ir_cg_norm.c:1242-1246 -/
def width (p : Pre) : Nat := match p.it with | .imm => 1 | .imm64 => 2

/-- Inner loop of `calc_pos`, core/ir_cg_norm.c:1237-1247 -/
def posPres : Nat → List Pre → List PPre × Nat
  | n, [] => ([], n)
  | n, p :: ps => let r := posPres (n + width p) ps; ((n, p) :: r.1, r.2)

/-- Middle loop of `calc_pos`, core/ir_cg_norm.c:1235-1248 -/
def posInsns : Nat → List TInsn → List PInsn × Nat
  | n, [] => ([], n)
  | n, i :: is =>
    let a := posPres n i.tr
    let r := posInsns a.2 is
    (⟨i.insn, a.1⟩ :: r.1, r.2)

/-- Outer loop of `calc_pos`, core/ir_cg_norm.c:1224-1251; the second component is `env->insn_cnt`. -/
def posBlocks : Nat → List TBlock → List PBlock × Nat
  | n, [] => ([], n)
  | n, b :: bs =>
    let a := posInsns n b.body
    let r := posBlocks a.2 bs
    (⟨b.id, n, a.1⟩ :: r.1, r.2)

/-- `bb_cg(bb)->pos`; a block that is not in the layout has no such record (`user_data` is NULL). -/
def bbPos (bs : List PBlock) (id : Nat) : Out Nat :=
  match bs.find? (fun b => b.id == id) with
  | some b => .ok b.pos
  | none => .ub

/-- The offset written by `relocate`: `size_t` arithmetic cut to `s16`, core/ir_cg_norm.c:1265-1275 -/
def jumpOff (target pos : Nat) : BitVec 16 := BitVec.ofInt 16 ((target : Int) - pos - 1)

/-- Setting the offset of `translated[0]` after the assertion on `translated_num`. -/
def patch (bs : List PBlock) (i : PInsn) (target : Nat) : Out PInsn :=
  match i.tr with
  | [(pos, p)] => do
    let t ← bbPos bs target
    Out.ok { i with tr := [(pos, { p with off := jumpOff t pos })] }
  | _ => .crit

/-- Body of `relocate`, core/ir_cg_norm.c:1263-1276 -/
def relocInsn (bs : List PBlock) (i : PInsn) : Out PInsn :=
  if i.insn.op = .ja then patch bs i i.insn.bb1
  else if i.insn.op.condJmp then patch bs i i.insn.bb2
  else .ok i

def relocInsns (bs : List PBlock) : List PInsn → Out (List PInsn)
  | [] => .ok []
  | i :: is => do
    let a ← relocInsn bs i
    let r ← relocInsns bs is
    Out.ok (a :: r)

/-- `relocate` after `calc_pos`, core/ir_cg_norm.c:1256-1278 -/
def relocBlocks (all : List PBlock) : List PBlock → Out (List PBlock)
  | [] => .ok []
  | b :: bs => do
    let body ← relocInsns all b.body
    let r ← relocBlocks all bs
    Out.ok ({ b with body := body } :: r)

/-! ## Writing the array -/

/-- An array write; out of bounds is undefined. -/
def setSlot (a : List Slot) (n : Nat) (f : Slot → Slot) : Out (List Slot) :=
  match a[n]? with
  | some s => .ok (a.set n (f s))
  | none => .ub

/-- Writing one machine instruction, core/ir_cg_norm.c:1297-1314.  `dst_reg` and `src_reg` are 4-bit
fields; only `imm` of the second slot of a wide instruction is written. -/
def writePre (a : List Slot) (q : PPre) : Out (List Slot) := do
  let p := q.2
  let a ← setSlot a q.1 (fun s =>
    { s with code := p.opcode, dst := BitVec.ofNat 4 p.dst, src := BitVec.ofNat 4 p.src, off := p.off })
  match p.it with
  | .imm => setSlot a q.1 (fun s => { s with imm := p.imm })
  | .imm64 => do
    let a ← setSlot a q.1 (fun s => { s with imm := p.imm64.setWidth 32 })
    setSlot a (q.1 + 1) (fun s => { s with imm := (p.imm64 >>> 32).setWidth 32 })

def writePres : List Slot → List PPre → Out (List Slot)
  | a, [] => .ok a
  | a, q :: qs => do
    let a ← writePre a q
    writePres a qs

def writeInsns : List Slot → List PInsn → Out (List Slot)
  | a, [] => .ok a
  | a, i :: is => do
    let a ← writePres a i.tr
    writeInsns a is

def writeBlocks : List Slot → List PBlock → Out (List Slot)
  | a, [] => .ok a
  | a, b :: bs => do
    let a ← writeInsns a b.body
    writeBlocks a bs

/-- `synthesize`, core/ir_cg_norm.c:1281-1318 -/
def synthesize (bs : List PBlock) (cnt : Nat) : Out (List Slot) :=
  writeBlocks (List.replicate cnt ⟨0, 0, 0, 0, 0⟩) bs

/-- `relocate` and `synthesize` together. -/
def emitT (ts : List TBlock) : Out (List Slot) := do
  let pb := posBlocks 0 ts
  let rb ← relocBlocks pb.1 pb.1
  synthesize rb pb.2

/-- `bpf_ir_cg_norm` from `normalize` on (without `replace_builtin_const`),
core/ir_cg_norm.c:1349-1377 -/
def emit (bs : List FBlock) : Out (List Slot) := do
  let ts ← lowerBlocks bs
  checkTotal ts
  emitT ts

end Verif.Emit
