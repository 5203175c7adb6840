import Verif.IR.Syntax
import Verif.GenBB.Model
/-!
# Model of the lifter: bytecode blocks to SSA (core/bpf_ir.c:5-217, 601-1500, 1557-1584)

Blocks are the numbers of `GenBB`; the entry is block 0.  IR instruction 0 is the stack pointer, 1..5
are the function arguments, further instructions are numbered in the order of creation.

Simplifications
* An error ends the run at once.  In the C code `read_variable` sets `env->err`, the rest of the block
  is still filled, and the error is noticed when the block is left; the outcome is an error in both.
* An operand is read before the instruction using it is appended to its block (several arms of
  `transform_bb` append first).  Reading only adds phis at the front of blocks, so the lists agree.
* `raw_pos` is left out.  The entries of `currentDef` for the null block (written by `init_tenv`, never
  read) are left out.
* Recursion is bounded by a number `n` (result `ub` when it is exceeded); the theorems hold for all `n`.
-/
namespace Verif.Lift
open Verif Verif.Bpf Verif.IR Verif.GenBB

/-- `helper_func_arg_num`, core/bpf_ir.c:5-217 -/
def helperArgs : List Int :=
  [0, 2, 4, 2, 3, 0, -1, 0, 0, 5, 5, 5, 3, 3, 0, 0, 2, 1, 3, 1, 4, 4, 2, 2, 1, 5, 4, 3, 5, 3, 3, 3,
   2, 3, 1, 0, 3, 2, 3, 2, 2, 1, 0, 3, 2, 3, 1, 1, 2, 5, 4, 3, 4, 4, 2, 4, 3, 5, 2, 2, 4, 2, 2, 4,
   3, 2, 5, 4, 5, 4, 4, 4, 4, 4, 4, 3, 4, 1, 4, 1, 0, 2, 4, 2, 5, 5, 1, 3, 2, 2, 4, 4, 3, 1, 1, 1,
   1, 1, 1, 5, 5, 4, 3, 3, 3, 4, 4, 5, 2, 1, 5, 5, 3, 3, 3, 3, 2, 1, 0, 4, 4, 5, 1, 1, 3, 0, 5, 3,
   1, 2, 4, 3, 2, 2, 2, 2, 1, 1, 1, 1, 1, 4, 4, 4, 3, 5, 2, 3, 3, 5, 4, 1, 4, 2, 1, 2, 5, 2, 0, 2,
   0, 3, 1, 5, 4, 5, 3, 4, 1, 3, 3, 3, 1, 1, 1, 1, 3, 4, 1, 4, 5, 4, 3, 3, 2, 1, 0, 1, 1, 4, 4, 5,
   3, 3, 2, 3, 1, 4, 4, 2, 2, 5, 5, 3, 3, 3, 2, 2, 0, 4, 5, 2]

/-- Number of arguments of a helper. -/
def arity (fid : BitVec 32) : Nat := ((helperArgs[fid.toNat]?).getD 0).toNat

/-- `struct ssa_transform_env` with the heaps: instructions and their users, bodies of the blocks,
`currentDef`, `incompletePhis`, `sealed`, `filled`. -/
structure LSt where
  insn : Nat → Insn
  users : Nat → List Nat
  next : Nat
  parent : Nat → Nat
  body : Nat → List Nat
  defs : Nat → Nat → Option Val
  inc : Nat → Nat → Option Nat
  sealed : Nat → Bool
  filled : Nat → Bool

/-- Functions changed at one place. -/
def upd {α : Type} (f : Nat → α) (k : Nat) (v : α) : Nat → α := fun j => if j = k then v else f j

/-- `write_variable`, core/bpf_ir.c:644-668 -/
def LSt.write (s : LSt) (r b : Nat) (v : Val) : LSt :=
  { s with defs := upd s.defs r (upd (s.defs r) b (some v)) }

/-- `add_user`, core/bpf_ir.c:836-842 -/
def LSt.addUser (s : LSt) (x : Nat) (v : Val) : LSt :=
  match v with
  | .insn y => { s with users := upd s.users y (pushU (s.users y) x) }
  | _ => s

/-- `create_insn_front`, core/bpf_ir.c:715-722, then filling in the fields -/
def LSt.front (s : LSt) (b : Nat) (i : Insn) : LSt :=
  { s with insn := upd s.insn s.next i, next := s.next + 1, parent := upd s.parent s.next b, body := upd s.body b (s.next :: s.body b) }

/-- `create_insn_back`, core/bpf_ir.c:707-713, then filling in the fields -/
def LSt.back (s : LSt) (b : Nat) (i : Insn) : LSt :=
  { s with insn := upd s.insn s.next i, next := s.next + 1, parent := upd s.parent s.next b, body := upd s.body b (s.body b ++ [s.next]) }

/-- Push to the `phi` array of an instruction. -/
def LSt.pushPhi (s : LSt) (x : Nat) (o : Nat × Val) : LSt :=
  { s with insn := upd s.insn x { s.insn x with phi := (s.insn x).phi ++ [o] } }

/-- A phi without operands. -/
def phi0 : Insn := { op := .phi }

def predsOf (C : List Blk) (b : Nat) : List Nat := match C[b]? with | some k => k.preds | none => []
def succsOf (C : List Blk) (b : Nat) : List Nat := match C[b]? with | some k => k.succs | none => []
def insnsOf (C : List Blk) (b : Nat) : List PreInsn := match C[b]? with | some k => k.insns | none => []

/-- The loop of `add_phi_operands`, core/bpf_ir.c:670-691 (`rd` is `read_variable` at a block) -/
def addOps (rd : Nat → LSt → Out (Val × LSt)) (x : Nat) : List Nat → LSt → Out LSt
  | [], s => .ok s
  | p :: ps, s => do
    let (v, s) ← rd p s
    addOps rd x ps ((s.addUser x v).pushPhi x (p, v))

/-- `read_variable` and `read_variable_recursive`, core/bpf_ir.c:724-752, 768-801 -/
def readVar (C : List Blk) : Nat → Nat → Nat → LSt → Out (Val × LSt)
  | 0, _, _, _ => .ub
  | n + 1, r, b, s =>
    if r = 10 then .ok (.insn 0, s)
    else if 11 ≤ r then .ub
    else
      match s.defs r b with
      | some v => .ok (v, s)
      | none =>
        if b = 0 then
          if 1 ≤ r ∧ r ≤ 5 then .ok (.insn r, s) else .err
        else if s.sealed b = false then
          let x := s.next
          let s := s.front b phi0
          let s := { s with inc := upd s.inc b (upd (s.inc b) r (some x)) }
          .ok (.insn x, s.write r b (.insn x))
        else
          match predsOf C b with
          | [p] => do
            let (v, s) ← readVar C n r p s
            .ok (v, s.write r b v)
          | ps => do
            let x := s.next
            let s := s.front b phi0
            let s := s.write r b (.insn x)
            let s ← addOps (readVar C n r) x ps s
            .ok (.insn x, s.write r b (.insn x))

/-- The loop of `seal_block`, core/bpf_ir.c:632-642, over the registers `rs` -/
def sealRegs (C : List Blk) (n b : Nat) : List Nat → LSt → Out LSt
  | [], s => .ok s
  | r :: rs, s => do
    let s ← (match s.inc b r with
      | some x => addOps (readVar C n r) x (predsOf C b) s
      | none => .ok s)
    sealRegs C n b rs s

/-- `seal_block`, core/bpf_ir.c:632-642 -/
def sealBlock (C : List Blk) (n b : Nat) (s : LSt) : Out LSt := do
  let s ← sealRegs C n b (List.range 11) s
  .ok { s with sealed := upd s.sealed b true }

/-- An operand of an instruction: a register or `bpf_ir_value_const32(imm)`. -/
inductive Opd where
  | reg (r : Nat)
  | imm (i : BitVec 32)
  deriving Repr, DecidableEq

/-- What one bytecode instruction turns into: only a `write_variable` (MOV), or a new IR instruction
with an address register, operands and the register that receives its value. -/
inductive Act where
  | mov (d : Nat) (o : Opd)
  | emit (i : Insn) (a : Option Nat) (os : List Opd) (d : Option Nat)
  deriving Repr, DecidableEq

/-- `get_src_value`, core/bpf_ir.c:909-926 -/
def srcOpd (s : Slot) : Opd := if s.code.toNat / 8 % 2 = 1 then .reg s.src.toNat else .imm s.imm

/-- `to_ir_ld_u(BPF_SIZE(code))`, core/bpf_ir.c:803-818 -/
def ldTy (c : BitVec 8) : VrTy :=
  match c.toNat / 8 % 4 with
  | 0 => .t32
  | 1 => .t16
  | 2 => .t8
  | _ => .t64

/-- `offset_type`, core/bpf_ir.c:1185-1189 -/
def offKind (r : BitVec 4) : CKind := if r = 10 then .rawoff else .plain

/-- The ALU operations handled by `alu_write_bin`, core/bpf_ir.c:1073-1129 -/
def aluIr : Nat → Option Op
  | 0x0 => some .add | 0x1 => some .sub | 0x2 => some .mul | 0x3 => some .div
  | 0x4 => some .or | 0x5 => some .and | 0x6 => some .lsh | 0xc => some .arsh
  | 0x7 => some .rsh | 0x9 => some .mod | 0xa => some .xor
  | _ => none

/-- The conditional jumps, core/bpf_ir.c:1290-1329 -/
def condIr : Nat → Option Op
  | 0x1 => some .jeq | 0xa => some .jlt | 0xb => some .jle | 0x2 => some .jgt
  | 0x3 => some .jge | 0x5 => some .jne | 0x7 => some .jsge | 0xd => some .jsle
  | 0x6 => some .jsgt | 0xc => some .jslt
  | _ => none

/-- `get_ir_bb_from_position`, core/bpf_ir.c:879-891.  A negative position is a huge `size_t`. -/
def bbAt (C : List Blk) (pos : Int) : Out Nat :=
  match C.findIdx? (fun k => (k.start : Int) == pos) with
  | some b => .ok b
  | none => .crit

/-- Number of arguments of `bpf_trace_printk`, core/bpf_ir.c:1421-1441: 2, then one more for each of
r3, r4, r5 in turn while it has an entry for this block in `currentDef`. -/
def printkArgs (defd : Nat → Bool) : Nat :=
  if defd 3 then (if defd 4 then (if defd 5 then 5 else 4) else 3) else 2

/-- r1, r2, ... -/
def argOpds (k : Nat) : List Opd := (List.range k).map (fun j => .reg (j + 1))

/-- Call instructions, core/bpf_ir.c:1330-1477 -/
def planCall (defd : Nat → Bool) (s : Slot) : Out Act :=
  if s.src = 1 then .err
  else if s.src = 2 then .err
  else if s.src = 6 then
    if s.imm.toInt < 0 then .err
    else if 5 < s.dst.toNat then .ub
    else .ok (.emit { op := .ecall, aux := s.imm } none (argOpds s.dst.toNat) (some 0))
  else if s.imm.toInt < 0 then .err
  else
    match helperArgs[s.imm.toNat]? with
    | none => .err
    | some k =>
      if k < 0 then
        if s.imm.toNat = 6 then
          .ok (.emit { op := .call, aux := s.imm } none (argOpds (printkArgs defd)) (some 0))
        else .err
      else if 5 < k then .err
      else .ok (.emit { op := .call, aux := s.imm } none (argOpds k.toNat) (some 0))

/-- The case distinction of `transform_bb` for one instruction, core/bpf_ir.c:1056-1490.  `defd r` is
`is_variable_defined(tenv, r, bb)`. -/
def plan (C : List Blk) (defd : Nat → Bool) (q : PreInsn) : Out Act :=
  let s := q.slot
  let c := s.code.toNat
  let d := s.dst.toNat
  if c % 8 = 4 ∨ c % 8 = 7 then
    let ty : AluTy := if c % 8 = 4 then .w32 else .w64
    match aluIr (c / 16) with
    | some o => .ok (.emit { op := o, aluOp := ty } none [.reg d, srcOpd s] (some d))
    | none =>
      if c / 16 = 0xb then .ok (.mov d (srcOpd s))
      else if c / 16 = 0xd then
        if c % 8 = 7 then .err
        else if c / 8 % 2 = 1 then
          .ok (.emit { op := .htobe, aluOp := .w32, aux := s.imm } none [.reg d] (some d))
        else .ok (.emit { op := .htole, aluOp := .w32, aux := s.imm } none [.reg d] (some d))
      else if c / 16 = 0x8 then
        if c / 8 % 2 = 1 then .err
        else .ok (.emit { op := .neg, aluOp := ty } none [.reg d] (some d))
      else .err
  else if c = 0x18 then
    if s.src.toNat ≤ 6 then
      .ok (.emit { op := .loadimm, immKind := s.src.toNat, imm64 := q.imm64 } none [] (some d))
    else .err
  else if c % 8 = 1 ∧ c / 32 = 4 then
    .ok (.emit { op := .loadraw, vrType := ldTy s.code, addrOff := s.off, addrKind := offKind s.src }
      (some s.src.toNat) [] (some d))
  else if c % 8 = 1 ∧ c / 32 = 3 then
    .ok (.emit { op := .loadraw, vrType := ldTy s.code, addrOff := s.off, addrKind := offKind s.src }
      (some s.src.toNat) [] (some d))
  else if c % 8 = 2 ∧ c / 32 = 3 then
    .ok (.emit { op := .storeraw, vrType := ldTy s.code, addrOff := s.off, addrKind := offKind s.dst }
      (some d) [.imm s.imm] none)
  else if c % 8 = 3 ∧ c / 32 = 3 then
    .ok (.emit { op := .storeraw, vrType := ldTy s.code, addrOff := s.off, addrKind := offKind s.dst }
      (some d) [.reg s.src.toNat] none)
  else if c % 8 = 5 ∨ c % 8 = 6 then
    let ty : AluTy := if c % 8 = 5 then .w64 else .w32
    if c / 16 = 0 then do
      let t ← bbAt C (q.pos + s.off.toInt + 1)
      .ok (.emit { op := .ja, bb1 := t } none [] none)
    else if c / 16 = 9 then .ok (.emit { op := .ret } none [.reg 0] none)
    else
      match condIr (c / 16) with
      | some o => do
        let t1 ← bbAt C (q.pos + 1)
        let t2 ← bbAt C (q.pos + s.off.toInt + 1)
        .ok (.emit { op := o, aluOp := ty, bb1 := t1, bb2 := t2 } none [.reg d, srcOpd s] none)
      | none => if c / 16 = 8 then planCall defd s else .err
  else .err

/-- Value of an operand. -/
def readOpd (C : List Blk) (n b : Nat) (o : Opd) (s : LSt) : Out (Val × LSt) :=
  match o with
  | .imm i => .ok (.const .plain (i.signExtend 64) .w32 .none, s)
  | .reg r => readVar C n r b s

def readOpds (C : List Blk) (n b : Nat) : List Opd → LSt → Out (List Val × LSt)
  | [], s => .ok ([], s)
  | o :: os, s => do
    let (v, s) ← readOpd C n b o s
    let (vs, s) ← readOpds C n b os s
    .ok (v :: vs, s)

/-- `write_variable` with its array access (`currentDef` has 11 entries). -/
def writeReg (d b : Nat) (v : Val) (s : LSt) : Out LSt :=
  if 11 ≤ d then .ub else .ok (s.write d b v)

/-- Append the instruction, register its uses, write the register. -/
def emit (b : Nat) (i : Insn) (d : Option Nat) (s : LSt) : Out LSt :=
  let x := s.next
  let s := (i.addr :: i.vals).foldl (fun s v => s.addUser x v) (s.back b i)
  match d with
  | none => .ok s
  | some d => writeReg d b (.insn x) s

/-- Carry out an action, core/bpf_ir.c:928-1026 and the arms of `transform_bb`. -/
def apply (C : List Blk) (n b : Nat) (a : Act) (s : LSt) : Out LSt :=
  match a with
  | .mov d o => do
    let (v, s) ← readOpd C n b o s
    writeReg d b v s
  | .emit i none os d => do
    let (vs, s) ← readOpds C n b os s
    emit b { i with vals := vs } d s
  | .emit i (some r) os d => do
    let (a, s) ← readVar C n r b s
    let (vs, s) ← readOpds C n b os s
    emit b { i with addr := a, vals := vs } d s

/-- One round of the filling loop of `transform_bb`, core/bpf_ir.c:1056-1490 -/
def transformInsn (C : List Blk) (n b : Nat) (q : PreInsn) (s : LSt) : Out LSt := do
  let a ← plan C (fun r => (s.defs r b).isSome) q
  let s ← apply C n b a s
  if (q.slot.code.toNat % 8 = 4 ∨ q.slot.code.toNat % 8 = 7) ∧ q.slot.off ≠ 0 then .err else .ok s

def fill (C : List Blk) (n b : Nat) : List PreInsn → LSt → Out LSt
  | [], s => .ok s
  | q :: qs, s => do
    let s ← transformInsn C n b q s
    fill C n b qs s

/-- The loop over the successors, core/bpf_ir.c:1493-1499 -/
def visit (f : Nat → LSt → Out LSt) : List Nat → LSt → Out LSt
  | [], s => .ok s
  | b :: bs, s => do
    let s ← f b s
    visit f bs s

/-- `transform_bb`, core/bpf_ir.c:1028-1500 -/
def transformBB (C : List Blk) (n : Nat) : Nat → Nat → LSt → Out LSt
  | 0, _, _ => .ub
  | k + 1, b, s =>
    if s.sealed b then .ok s
    else do
      let s ← (if (predsOf C b).all s.filled then sealBlock C n b s else .ok s)
      if s.filled b then .ok s
      else do
        let s ← fill C n b (insnsOf C b) s
        visit (transformBB C n k) (succsOf C b) { s with filled := upd s.filled b true }

/-- `init_tenv`, core/bpf_ir.c:601-630 -/
def init : LSt where
  insn := fun x => if x = 0 then { op := .reg, aux := 10 } else { op := .funarg, aux := BitVec.ofNat 32 (x - 1) }
  users := fun _ => []
  next := 6
  parent := fun _ => 0
  body := fun _ => []
  defs := fun _ _ => none
  inc := fun _ _ => none
  sealed := fun _ => false
  filled := fun _ => false

/-- `init_ir_bbs` (core/bpf_ir.c:849-877) and `init_function` (core/bpf_ir.c:1557-1584) -/
def toFn (C : List Blk) (s : LSt) : Fn where
  insn := s.insn
  users := s.users
  next := s.next
  parent := s.parent
  body := s.body
  preds := predsOf C
  succs := succsOf C
  allBbs := List.range C.length
  entry := 0
  sp := 0
  args := [1, 2, 3, 4, 5]

/-- Blocks to IR: core/bpf_ir.c:1915-1935 without `gen_bb`. -/
def liftBlocks (n : Nat) (C : List Blk) : Out LSt := transformBB C n n 0 init

/-- `bpf_ir_lift`, core/bpf_ir.c:1910-1939 (without the final `pass_postprocess`, see `Layout`) -/
def lift (n : Nat) (P : List Slot) : Out Fn := do
  let C ← genBB P
  let s ← liftBlocks n C
  .ok (toFn C s)

end Verif.Lift
