import Verif.Base
import Verif.Spec.Bpf
/-!
# Model of instruction normalization and translation (core/ir_cg_norm.c)

This stage runs after register allocation.  Instructions are "flattened": operands are constants or
allocated positions (a machine register or a stack slot).

Simplifications: machine register numbers are `Fin 11` (the C field is a `u8` that only ever holds
r0..r9 from coloring or r10); stack positions (`s32 spilled`) are integers; the union
`fid/swap_width/array_num/...` of `struct ir_insn` is one 32-bit field `aux`.
-/
namespace Verif.Norm
open Verif

/-- `enum ir_insn_type`, core/include/linux/bpf_ir.h:474-522 -/
inductive Op where
  | alloc | allocarray | getelemptr | store | load | loadimm | storeraw | loadraw
  | neg | htole | htobe
  | add | sub | mul | div | or | and | lsh | arsh | rsh | mod | xor
  | call | ret | throw
  | ja | jeq | jgt | jge | jlt | jle | jne | jsge | jsle | jsgt | jslt
  | phi | assign | reg | funarg | ecall
  deriving Repr, DecidableEq, Inhabited

/-- `enum ir_alu_op_type`, core/include/linux/bpf_ir.h -/
inductive AluTy where
  | unknown | w32 | w64
  deriving Repr, DecidableEq, Inhabited

/-- `enum ir_vr_type`, core/include/linux/bpf_ir.h -/
inductive VrTy where
  | unknown | t8 | t16 | t32 | t64
  deriving Repr, DecidableEq, Inhabited

/-- `enum ir_builtin_constant`, core/include/linux/bpf_ir.h -/
inductive Builtin where
  | none | bbInsnCnt | bbInsnCriticalCnt
  deriving Repr, DecidableEq, Inhabited

/-- Which of the three constant tags an operand has (`IR_VALUE_CONSTANT`, `.._RAWOFF`,
`.._RAWOFF_REV`). -/
inductive CKind where
  | plain | rawoff | rawoffRev
  deriving Repr, DecidableEq, Inhabited

abbrev Reg := Fin 11

/-- `struct ir_vr_pos`, core/include/linux/bpf_ir.h:416-422 (`spilled_size` is not used here) -/
structure VrPos where
  allocated : Bool
  reg : Reg
  spilled : Int
  deriving Repr, DecidableEq, Inhabited

/-- `struct ir_value` after flattening: a constant, a position (`IR_VALUE_FLATTEN_DST`) or something
else (`IR_VALUE_UNDEF`, `IR_VALUE_INSN`). -/
inductive FVal where
  | const (k : CKind) (c : BitVec 64) (ct : AluTy) (b : Builtin)
  | pos (p : VrPos)
  | other
  deriving Repr, DecidableEq, Inhabited

/-- A flattened `struct ir_insn` with its `ir_insn_norm_extra.pos`. Blocks are named by numbers. -/
structure FInsn where
  op : Op
  v0 : FVal := .other
  v1 : FVal := .other
  valueNum : Nat := 0
  vrType : VrTy := .unknown
  addr : FVal := .other
  addrOff : BitVec 16 := 0
  aluOp : AluTy := .unknown
  bb1 : Nat := 0
  bb2 : Nat := 0
  aux : BitVec 32 := 0
  immKind : Nat := 0
  imm64 : BitVec 64 := 0
  dst : VrPos := ⟨false, 0, 0⟩
  deriving Repr, DecidableEq, Inhabited

/-- `enum val_type`, core/include/ir_cg.h -/
inductive VType where
  | undef | reg | const | stack
  deriving Repr, DecidableEq, Inhabited

/-- `vtype_insn_norm`, core/ir_cg_norm.c:40-53 (also the first half of `vtype`) -/
def posType (p : VrPos) : VType :=
  if p.allocated then (if p.spilled ≠ 0 then .stack else .reg) else .undef

/-- `vtype`, core/ir_cg_norm.c:18-38 -/
def vtype : FVal → Out VType
  | .pos p => .ok (posType p)
  | .const _ _ _ _ => .ok .const
  | .other => .crit

/-- `insn->value_num >= n ? vtype(v) : UNDEF` -/
def vtypeAt (i : FInsn) (n : Nat) (v : FVal) : Out VType :=
  if i.valueNum ≥ n then vtype v else .ok .undef

/-- `DBGASSERT` -/
def assert (b : Bool) : Out Unit := if b then .ok () else .crit

/-- `VR_POS_STACK_PTR`, core/include/linux/bpf_ir.h:1134 -/
def stackPtrPos : VrPos := ⟨true, 10, 0⟩

/-- `bpf_ir_value_norm_stack_ptr`, core/ir_value.c:123-126 -/
def stackPtr : FVal := .pos stackPtrPos

/-- `bpf_ir_value_const32`, core/ir_value.c:71-78: an `s32` stored in the `s64` field -/
def const32 (v : BitVec 32) : FVal := .const .plain (v.signExtend 64) .w32 .none

/-- The register field of a position (`data.vr_pos.alloc_reg`). -/
def FVal.regOf : FVal → Reg
  | .pos p => p.reg
  | _ => 0

/-- `data.vr_pos.spilled` -/
def FVal.spillOf : FVal → Int
  | .pos p => p.spilled
  | _ => 0

/-- `const_type` (IR_ALU_UNKNOWN for non-constants, core/ir_value.c:38-46) -/
def FVal.ctype : FVal → AluTy
  | .const _ _ ct _ => ct
  | _ => .unknown

/-- `data.constant_d` -/
def FVal.constOf : FVal → BitVec 64
  | .const _ c _ _ => c
  | _ => 0

/-- `bpf_ir_create_assign_insn_norm`, core/ir_insn.c:679-692,1239-1249 -/
def mkAssign (dst : VrPos) (v : FVal) : FInsn :=
  { op := .assign, v0 := v, valueNum := 1, dst := dst }

/-- `bpf_ir_is_commutative_alu`, core/ir_insn.c:337-343 -/
def Op.comm : Op → Bool
  | .add | .mul | .or | .and | .xor => true
  | _ => false

/-- `bpf_ir_is_bin_alu`, core/ir_insn.c:332-335 -/
def Op.binAlu : Op → Bool
  | .add | .sub | .mul | .div | .or | .and | .lsh | .arsh | .rsh | .mod | .xor => true
  | _ => false

/-- `bpf_ir_is_cond_jmp`, core/ir_insn.c:327-330 -/
def Op.condJmp : Op → Bool
  | .jeq | .jgt | .jge | .jlt | .jle | .jne | .jsge | .jsle | .jsgt | .jslt => true
  | _ => false

/-- `normalize_load_const`, core/ir_cg_norm.c:187-205: the instruction inserted in front; the operand
itself becomes the position `dst`. -/
def normLoadConst (v : FVal) (dst : VrPos) : FInsn :=
  if v.ctype = .w32 then { mkAssign dst v with aluOp := .w64 }
  else { op := .loadimm, immKind := 0, imm64 := v.constOf, dst := dst, vrType := .t64 }

/-- `normalize_assign`, core/ir_cg_norm.c:207-248; `none` when the instruction is erased. -/
def normAssign (i : FInsn) : Out (Option FInsn) := do
  let t0 ← vtypeAt i 1 i.v0
  let td := posType i.dst
  if td = .stack then do
    assert (t0 ≠ .stack)
    Out.ok (some { i with op := .storeraw, addr := stackPtr,
                          addrOff := BitVec.ofInt 16 i.dst.spilled, vrType := .t64 })
  else
    let i1 := if t0 = .stack then
        { i with op := .loadraw, addr := stackPtr, addrOff := BitVec.ofInt 16 i.v0.spillOf }
      else i
    let i2 := if t0 = .const ∧ i.v0.ctype = .w64 then
        { i1 with op := .loadimm, immKind := 0, imm64 := i.v0.constOf }
      else i1
    if td = .reg ∧ t0 = .reg ∧ i.dst.reg = i.v0.regOf then Out.ok none
    else Out.ok (some i2)

/-- The operator used when the operands of a comparison are exchanged, core/ir_cg_norm.c:279-299. -/
def swapCond : Op → Option Op
  | .jgt => some .jlt
  | .jeq => some .jeq
  | .jne => some .jne
  | .jlt => some .jgt
  | .jge => some .jle
  | .jle => some .jge
  | .jsge => some .jsle
  | .jsle => some .jsge
  | .jsgt => some .jslt
  | .jslt => some .jsgt
  | _ => none

/-- `normalize_cond_jmp`, core/ir_cg_norm.c:250-304; `none` when the instruction is erased. -/
def normCondJmp (i : FInsn) : Out (Option FInsn) := do
  let t0 ← vtypeAt i 1 i.v0
  let t1 ← vtypeAt i 2 i.v1
  if t0 = .const then
    if t1 = .const then
      if i.op = .jne then
        if i.v0.constOf ≠ i.v1.constOf then
          Out.ok (some { i with op := .ja, valueNum := 0, bb1 := i.bb2, bb2 := 0 })
        else Out.ok none
      else Out.err
    else
      match swapCond i.op with
      | some o => Out.ok (some { i with op := o, v0 := i.v1, v1 := i.v0 })
      | none => Out.err
  else Out.ok (some i)

/-- `normalize_alu`, core/ir_cg_norm.c:307-415.  The result is the instructions inserted in front
followed by the instruction itself. -/
def normAlu (i : FInsn) : Out (List FInsn) := do
  let t0 ← vtypeAt i 1 i.v0
  let t1 ← vtypeAt i 2 i.v1
  assert (posType i.dst = .reg)
  -- lines 316-347: destination equal to the second operand
  let (pre, j, t0, t1) ←
    (if t1 = .reg ∧ i.dst.reg = i.v1.regOf then
      if i.op.comm then
        Out.ok (([] : List FInsn), { i with v0 := i.v1, v1 := i.v0 }, t1, t0)
      else if i.op = .sub then
        Out.ok ([{ op := .neg, v0 := i.v1, valueNum := 1, aluOp := .w64, dst := i.dst }],
          { i with op := .add, v0 := i.v1, v1 := i.v0 }, t1, t0)
      else Out.err
    else Out.ok ([], i, t0, t1))
  assert (t0 = .const → j.v0.ctype = .w32)
  assert (t1 = .const → j.v1.ctype = .w32)
  if t0 = .stack ∧ (t1 = .const ∨ t1 = .reg) then do
    let n ← normAssign { mkAssign j.dst j.v0 with vrType := .t64 }
    Out.ok (pre ++ n.toList ++ [{ j with v0 := .pos j.dst }])
  else if t0 = .reg ∧ (t1 = .const ∨ t1 = .reg) then
    if j.v0.regOf ≠ j.dst.reg then
      Out.ok (pre ++ [mkAssign j.dst j.v0, { j with v0 := .pos j.dst }])
    else Out.ok (pre ++ [j])
  else if t0 = .const ∧ (t1 = .const ∨ t1 = .reg) then
    Out.ok (pre ++ [normLoadConst j.v0 j.dst, { j with v0 := .pos j.dst }])
  else Out.crit

/-- `normalize_getelemptr`, core/ir_cg_norm.c:417-474.  When the first operand is a stack slot no case
applies and the half-rewritten instruction stays as it is. -/
def normGetelemptr (i : FInsn) : Out (List FInsn) := do
  let t0 ← vtypeAt i 1 i.v0
  let t1 ← vtypeAt i 2 i.v1
  assert (t1 = .stack)
  assert (i.dst.allocated && i.dst.spilled == 0)
  let sp := i.v1.spillOf
  let j : FInsn := { i with op := .add, aluOp := .w64 }
  if t0 = .const then do
    assert (i.v0.ctype = .w32)
    let tmp : BitVec 64 := i.v0.constOf + BitVec.ofInt 64 sp
    let (o, tmp) := if tmp.slt 0 then (Op.sub, -tmp) else (Op.add, tmp)
    normAlu { j with op := o, v0 := stackPtr, v1 := const32 (tmp.setWidth 32) }
  else if t0 = .reg then
    let j := { j with v1 := const32 (BitVec.ofInt 32 sp) }
    let addSp : FInsn := { op := .add, v0 := .pos i.dst, v1 := stackPtr, valueNum := 2,
                           aluOp := .w64, dst := i.dst }
    if i.v0.regOf = i.dst.reg then
      Out.ok [addSp, { j with v0 := .pos i.dst }]
    else
      Out.ok [mkAssign i.dst i.v0, addSp, { j with v0 := .pos i.dst }]
  else Out.ok [j]

/-- `normalize_store`, core/ir_cg_norm.c:476-488.  Reading `vr_pos` out of an operand that is not a
position is undefined. -/
def normStore (i : FInsn) : Out (List FInsn) :=
  match i.v0 with
  | .pos p => do
    let r ← normAssign { i with op := .assign, dst := p, v0 := i.v1, valueNum := 1 }
    Out.ok r.toList
  | _ => .ub

/-- `normalize_load`, core/ir_cg_norm.c:490-500 -/
def normLoad (i : FInsn) : Out (List FInsn) := do
  let r ← normAssign { i with op := .assign }
  Out.ok r.toList

/-- `normalize_stackoff`, core/ir_cg_norm.c:502-515 -/
def normStackoff (i : FInsn) : Out (List FInsn) := do
  let t ← vtype i.addr
  if t = .stack then
    Out.ok [{ i with addrOff := i.addrOff + BitVec.ofInt 16 i.addr.spillOf, addr := stackPtr }]
  else Out.ok [i]

/-- `normalize_neg` and `normalize_end` (identical bodies), core/ir_cg_norm.c:517-545, 547-575.
`cgir_load_stack_to_reg_norm` (lines 162-173) inserts an assignment that is *not* normalized. -/
def normUnary (i : FInsn) : Out (List FInsn) := do
  let t0 ← vtypeAt i 1 i.v0
  assert (posType i.dst = .reg)
  if t0 = .reg then
    if i.v0.regOf ≠ i.dst.reg then
      Out.ok [mkAssign i.dst i.v0, { i with v0 := .pos i.dst }]
    else Out.ok [i]
  else if t0 = .const then Out.err
  else if t0 = .stack then
    Out.ok [{ mkAssign i.dst i.v0 with vrType := .t64 }, { i with v0 := .pos i.dst }]
  else Out.ok [i]

/-- `normalize_ret`, core/ir_cg_norm.c:577-596 -/
def normRet (i : FInsn) : Out (List FInsn) :=
  if i.valueNum = 0 then .ok [i]
  else do
    let t0 ← vtypeAt i 1 i.v0
    assert (t0 = .reg ∨ t0 = .const)
    Out.ok [{ mkAssign ⟨true, 0, 0⟩ i.v0 with vrType := .t64 }, { i with valueNum := 0 }]

/-- The dispatch of `normalize`, core/ir_cg_norm.c:607-648: what one instruction is replaced by.
Inserted instructions are not visited again. -/
def normInsn (i : FInsn) : Out (List FInsn) :=
  match i.op with
  | .alloc | .allocarray | .loadimm | .call | .ja => .ok [i]
  | .getelemptr => normGetelemptr i
  | .store => normStore i
  | .load => normLoad i
  | .loadraw | .storeraw => normStackoff i
  | .neg | .htobe | .htole => normUnary i
  | .assign => do let r ← normAssign i; Out.ok r.toList
  | .ret => normRet i
  | _ =>
    if i.op.binAlu then normAlu i
    else if i.op.condJmp then do let r ← normCondJmp i; Out.ok r.toList
    else .err

/-! ## Translation to machine instructions -/

/-- `enum imm_type`, core/include/ir.h -/
inductive ImmTy where
  | imm | imm64
  deriving Repr, DecidableEq, Inhabited

/-- `struct pre_ir_insn`, core/include/ir.h:56-68 (the field `pos` is kept separately) -/
structure Pre where
  opcode : BitVec 8 := 0
  dst : Reg := 0
  src : Nat := 0
  off : BitVec 16 := 0
  it : ImmTy := .imm
  imm : BitVec 32 := 0
  imm64 : BitVec 64 := 0
  deriving Repr, DecidableEq, Inhabited

/-- `translate_reg_to_reg`, core/ir_cg_norm.c:660-669 -/
def regToReg (d s : Reg) : Pre := { opcode := 0xb0 ||| 0x08 ||| 0x07, dst := d, src := s }

/-- `translate_const_to_reg`, core/ir_cg_norm.c:671-685 -/
def constToReg (d : Reg) (c : BitVec 64) (t : AluTy) : Pre :=
  { opcode := if t = .w32 then 0xb0 ||| 0x04 else 0xb0 ||| 0x07, dst := d, imm := c.setWidth 32 }

/-- `vr_type_to_size`, core/ir_cg_norm.c:687-701 -/
def vrSize : VrTy → Out (BitVec 8)
  | .t32 => .ok 0x00
  | .t16 => .ok 0x08
  | .t8 => .ok 0x10
  | .t64 => .ok 0x18
  | .unknown => .crit

/-- A register-addressed load, core/ir_cg_norm.c:715-716 -/
def ldxP (d s : Reg) (off : BitVec 16) (sz : BitVec 8) : Pre :=
  { dst := d, off := off, src := s, opcode := 0x01 ||| sz ||| 0x60 }

/-- A store of a register, core/ir_cg_norm.c:734-740 -/
def stxP (d s : Reg) (off : BitVec 16) (sz : BitVec 8) : Pre :=
  { dst := d, src := s, off := off, opcode := 0x03 ||| sz ||| 0x60 }

/-- A store of a constant, core/ir_cg_norm.c:746-753 -/
def stP (d : Reg) (c : BitVec 32) (off : BitVec 16) (sz : BitVec 8) : Pre :=
  { dst := d, imm := c, off := off, opcode := 0x02 ||| sz ||| 0x60 }

/-- A two-slot immediate load, core/ir_cg_norm.c:912-918 -/
def ldimmP (d : Reg) (kind : Nat) (v : BitVec 64) : Pre :=
  { opcode := 0x18, src := kind, dst := d, it := .imm64, imm64 := v }

/-- `load_addr_to_reg`, core/ir_cg_norm.c:703-729 -/
def loadAddr (d : Reg) (addr : FVal) (off : BitVec 16) (t : VrTy) : Out Pre := do
  let sz ← vrSize t
  match addr with
  | .pos p => do
    assert (posType p = .reg)
    Out.ok (ldxP d p.reg off sz)
  | .const .plain c _ _ => Out.ok { dst := d, off := off, it := .imm64, imm64 := c, opcode := sz }
  | _ => Out.crit

/-- `store_reg_to_reg_mem`, core/ir_cg_norm.c:731-741 -/
def storeReg (d s : Reg) (off : BitVec 16) (t : VrTy) : Out Pre := do
  let sz ← vrSize t
  Out.ok (stxP d s off sz)

/-- `store_const_to_reg_mem`, core/ir_cg_norm.c:743-754 -/
def storeConst (d : Reg) (c : BitVec 64) (off : BitVec 16) (t : VrTy) : Out Pre := do
  let sz ← vrSize t
  Out.ok (stP d (c.setWidth 32) off sz)

/-- `alu_code`, core/ir_cg_norm.c:767-797 -/
def aluCode : Op → Out (BitVec 8)
  | .neg => .ok 0x80
  | .add => .ok 0x00
  | .sub => .ok 0x10
  | .mul => .ok 0x20
  | .div => .ok 0x30
  | .or => .ok 0x40
  | .and => .ok 0x50
  | .mod => .ok 0x90
  | .xor => .ok 0xa0
  | .lsh => .ok 0x60
  | .arsh => .ok 0xc0
  | .rsh => .ok 0x70
  | _ => .crit

/-- `jmp_code`, core/ir_cg_norm.c:799-827 -/
def jmpCode : Op → Out (BitVec 8)
  | .ja => .ok 0x00
  | .jeq => .ok 0x10
  | .jne => .ok 0x50
  | .jlt => .ok 0xa0
  | .jle => .ok 0xb0
  | .jgt => .ok 0x20
  | .jge => .ok 0x30
  | .jsge => .ok 0x70
  | .jsle => .ok 0xd0
  | .jsgt => .ok 0x60
  | .jslt => .ok 0xc0
  | _ => .crit

/-- `type == IR_ALU_64 ? BPF_ALU64 : BPF_ALU` -/
def aluClass (t : AluTy) : BitVec 8 := if t = .w64 then 0x07 else 0x04

/-- `type == IR_ALU_64 ? BPF_JMP : BPF_JMP32` -/
def jmpClass (t : AluTy) : BitVec 8 := if t = .w64 then 0x05 else 0x06

/-- `alu_reg`, core/ir_cg_norm.c:829-838 -/
def aluRegP (d s : Reg) (t : AluTy) (c : BitVec 8) : Pre :=
  { dst := d, src := s, opcode := c ||| 0x08 ||| aluClass t }

/-- `alu_neg`, core/ir_cg_norm.c:840-847 -/
def aluNegP (d : Reg) (t : AluTy) : Pre := { dst := d, opcode := 0x80 ||| 0x00 ||| aluClass t }

/-- `alu_end`, core/ir_cg_norm.c:849-856 -/
def aluEndP (d : Reg) (w : BitVec 32) (e : BitVec 8) : Pre :=
  { dst := d, opcode := e ||| 0xd0 ||| 0x04, imm := w }

/-- `alu_imm`, core/ir_cg_norm.c:858-868 -/
def aluImmP (d : Reg) (v : BitVec 64) (t : AluTy) (c : BitVec 8) : Pre :=
  { dst := d, imm := v.setWidth 32, opcode := c ||| 0x00 ||| aluClass t }

/-- `cond_jmp_reg`, core/ir_cg_norm.c:870-879 -/
def condJmpRegP (d s : Reg) (t : AluTy) (c : BitVec 8) : Pre :=
  { dst := d, src := s, opcode := c ||| jmpClass t ||| 0x08 }

/-- `cond_jmp_imm`, core/ir_cg_norm.c:881-891 -/
def condJmpImmP (d : Reg) (v : BitVec 64) (t : AluTy) (c : BitVec 8) : Pre :=
  { dst := d, imm := v.setWidth 32, opcode := c ||| jmpClass t ||| 0x00 }

/-- `translate_ret`, core/ir_cg_norm.c:1003-1007 -/
def exitP : Pre := { opcode := 0x90 ||| 0x05 }

/-- `translate_call`, core/ir_cg_norm.c:1009-1016 -/
def callP (fid : BitVec 32) : Pre := { opcode := 0x80 ||| 0x05, imm := fid }

/-- `translate_ja`, core/ir_cg_norm.c:1018-1022 -/
def jaP : Pre := { opcode := 0x05 ||| 0x00 }

/-- `translate_loadraw`, core/ir_cg_norm.c:898-905 -/
def trLoadraw (i : FInsn) : Out (List Pre) := do
  assert (posType i.dst = .reg)
  let p ← loadAddr i.dst.reg i.addr i.addrOff i.vrType
  Out.ok [p]

/-- `translate_loadimm_extra`, core/ir_cg_norm.c:907-919 -/
def trLoadimm (i : FInsn) : Out (List Pre) := do
  assert (posType i.dst = .reg)
  assert (i.immKind ≤ 6)
  Out.ok [ldimmP i.dst.reg i.immKind i.imm64]

/-- `translate_storeraw`, core/ir_cg_norm.c:921-947 -/
def trStoreraw (i : FInsn) : Out (List Pre) := do
  let t0 ← vtypeAt i 1 i.v0
  match i.addr with
  | .pos p => do
    assert (posType p = .reg)
    if t0 = .reg then do
      let q ← storeReg p.reg i.v0.regOf i.addrOff i.vrType
      Out.ok [q]
    else if t0 = .const then do
      let q ← storeConst p.reg i.v0.constOf i.addrOff i.vrType
      Out.ok [q]
    else Out.crit
  | _ => Out.crit

/-- `translate_alu` with `alu_reg` and `alu_imm`, core/ir_cg_norm.c:949-976, 829-838, 858-868 -/
def trAlu (i : FInsn) : Out (List Pre) := do
  let t0 ← vtypeAt i 1 i.v0
  let t1 ← vtypeAt i 2 i.v1
  assert (posType i.dst = .reg)
  assert (t0 = .reg)
  assert (i.dst.reg = i.v0.regOf)
  if t1 = .reg then do
    let c ← aluCode i.op
    Out.ok [aluRegP i.dst.reg i.v1.regOf i.aluOp c]
  else if t1 = .const then
    if i.op = .add ∧ i.v1.constOf = 0 then Out.ok []
    else do
      let c ← aluCode i.op
      Out.ok [aluImmP i.dst.reg i.v1.constOf i.aluOp c]
  else Out.crit

/-- `translate_assign`, core/ir_cg_norm.c:978-1001 -/
def trAssign (i : FInsn) : Out (List Pre) := do
  let t0 ← vtypeAt i 1 i.v0
  if posType i.dst = .reg ∧ t0 = .const then
    Out.ok [constToReg i.dst.reg i.v0.constOf i.aluOp]
  else if posType i.dst = .reg ∧ t0 = .reg then
    if i.dst.reg = i.v0.regOf then Out.ok []
    else Out.ok [regToReg i.dst.reg i.v0.regOf]
  else Out.crit

/-- `translate_neg` with `alu_neg`, core/ir_cg_norm.c:1024-1033, 840-847 -/
def trNeg (i : FInsn) : Out (List Pre) := do
  let t0 ← vtypeAt i 1 i.v0
  assert (posType i.dst = .reg && t0 = .reg)
  assert (i.dst.reg = i.v0.regOf)
  Out.ok [aluNegP i.dst.reg i.aluOp]

/-- `translate_end` with `end_code` and `alu_end`, core/ir_cg_norm.c:1035-1046, 756-765, 849-856 -/
def trEnd (i : FInsn) : Out (List Pre) := do
  let t0 ← vtypeAt i 1 i.v0
  assert (posType i.dst = .reg)
  assert (t0 = .reg)
  assert (i.dst.reg = i.v0.regOf)
  let e : BitVec 8 := if i.op = .htobe then 0x08 else 0x00
  Out.ok [aluEndP i.dst.reg i.aux e]

/-- `translate_cond_jmp` with `cond_jmp_reg` and `cond_jmp_imm`, core/ir_cg_norm.c:1048-1082, 870-891 -/
def trCondJmp (i : FInsn) : Out (List Pre) := do
  let t0 ← vtypeAt i 1 i.v0
  let t1 ← vtypeAt i 2 i.v1
  assert (t0 = .reg ∨ t1 = .reg)
  if t0 = .reg then
    if t1 = .reg then do
      let c ← jmpCode i.op
      Out.ok [condJmpRegP i.v0.regOf i.v1.regOf i.aluOp c]
    else if t1 = .const then
      if i.v1.ctype = .w64 then Out.crit
      else do
        let c ← jmpCode i.op
        Out.ok [condJmpImmP i.v0.regOf i.v1.constOf i.aluOp c]
    else Out.crit
  else Out.crit

/-- The dispatch of `translate`, core/ir_cg_norm.c:1181-1218; the result is the
`translated[0..translated_num)` array. -/
def trInsn (i : FInsn) : Out (List Pre) :=
  match i.op with
  | .alloc | .allocarray => .ok []
  | .store | .load | .getelemptr => .crit
  | .loadraw => trLoadraw i
  | .loadimm => trLoadimm i
  | .storeraw => trStoreraw i
  | .neg => trNeg i
  | .htobe | .htole => trEnd i
  | .assign => trAssign i
  | .ret => .ok [exitP]
  | .call => .ok [callP i.aux]
  | .ja => .ok [jaP]
  | _ =>
    if i.op.binAlu then trAlu i
    else if i.op.condJmp then trCondJmp i
    else .err

/-- Run a function on every element of a list, stopping at the first failure, and concatenate. -/
def mapCat {α β : Type} (f : α → Out (List β)) : List α → Out (List β)
  | [] => .ok []
  | a :: as => do
    let x ← f a
    let y ← mapCat f as
    Out.ok (x ++ y)

/-- The slots written for one machine instruction, `synthesize`, core/ir_cg_norm.c:1297-1314.  The
second slot of a wide instruction only has its `imm` set; the rest is zero from `malloc_proto`. -/
def Pre.slots (p : Pre) : List Bpf.Slot :=
  match p.it with
  | .imm => [⟨p.opcode, BitVec.ofNat 4 p.dst, BitVec.ofNat 4 p.src, p.off, p.imm⟩]
  | .imm64 => [⟨p.opcode, BitVec.ofNat 4 p.dst, BitVec.ofNat 4 p.src, p.off, p.imm64.setWidth 32⟩,
               ⟨0, 0, 0, 0, (p.imm64 >>> 32).setWidth 32⟩]

/-- Normalization followed by translation of one instruction. -/
def lower (i : FInsn) : Out (List Pre) := do
  let is ← normInsn i
  mapCat trInsn is

end Verif.Norm
