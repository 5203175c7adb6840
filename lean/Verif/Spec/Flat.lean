import Verif.Norm.Model
/-!
# Specification: meaning of one allocated IR instruction

An instruction whose operands have been assigned to locations (machine registers, 8-byte stack slots
below r10, constants) has an obvious meaning: read the operands, compute, write the destination
location and nothing else.  This file writes that down over the BPF machine state, without looking at
how ePass lowers the instruction.  `none` means "no meaning" (ill-formed instruction).
-/
namespace Verif.Flat
open Verif Verif.Norm Verif.Bpf

/-- Address of the stack slot at offset `o` from the frame pointer. -/
def slotAddr (σ : St) (o : Int) : BitVec 64 := σ.reg 10 + BitVec.ofInt 64 o

/-- Value of an operand. -/
def val (σ : St) : FVal → Option (BitVec 64)
  | .const _ c _ _ => some c
  | .pos p =>
    match posType p with
    | .reg => some (σ.reg p.reg)
    | .stack => some (load 8 σ.mem (slotAddr σ p.spilled))
    | _ => none
  | .other => none

/-- Value of an operand in address position: a stack position there denotes the address of the stack
object itself (an allocated array). -/
def addrVal (σ : St) : FVal → Option (BitVec 64)
  | .pos p =>
    match posType p with
    | .reg => some (σ.reg p.reg)
    | .stack => some (slotAddr σ p.spilled)
    | _ => none
  | .const .plain c _ _ => some c
  | _ => none

/-- Write a location. -/
def put (σ : St) (p : VrPos) (v : BitVec 64) : Option St :=
  match posType p with
  | .reg => some (σ.set p.reg v)
  | .stack => some { σ with mem := store 8 σ.mem (slotAddr σ p.spilled) v }
  | _ => none

/-- 64-bit or 32-bit operation. -/
def width : AluTy → Option Bool
  | .w64 => some true
  | .w32 => some false
  | .unknown => none

/-- Bytes of a memory type. -/
def bytes : VrTy → Option Nat
  | .t8 => some 1 | .t16 => some 2 | .t32 => some 4 | .t64 => some 8
  | .unknown => none

/-- The arithmetic operation of a binary instruction. -/
def aluOp : Op → Option AluOp
  | .add => some .add | .sub => some .sub | .mul => some .mul | .div => some .div
  | .or => some .or | .and => some .and | .lsh => some .lsh | .arsh => some .arsh
  | .rsh => some .rsh | .mod => some .mod | .xor => some .xor
  | _ => none

/-- The comparison of a conditional jump. -/
def condOp : Op → Option Cond
  | .jeq => some .eq | .jne => some .ne | .jgt => some .gt | .jge => some .ge
  | .jlt => some .lt | .jle => some .le | .jsgt => some .sgt | .jsge => some .sge
  | .jslt => some .slt | .jsle => some .sle
  | _ => none

/-- Keep the low `n` bytes. -/
def truncBytes (n : Nat) (v : BitVec 64) : BitVec 64 := (v.setWidth (8 * n)).setWidth 64

/-- Effect of a non-control instruction. -/
def exec (W : World) (i : FInsn) (σ : St) : Option St :=
  match i.op with
  | .alloc | .allocarray => some σ
  | .getelemptr => do
    let x ← val σ i.v0
    let b ← addrVal σ i.v1
    put σ i.dst (b + x)
  | .store =>
    match i.v0 with
    | .pos p => do let x ← val σ i.v1; put σ p x
    | _ => none
  | .load => do
    let x ← val σ i.v0
    let n ← bytes i.vrType
    put σ i.dst (truncBytes n x)
  | .loadimm => put σ i.dst (if i.immKind = 0 then i.imm64 else W.ldimm i.immKind i.imm64)
  | .loadraw => do
    let a ← addrVal σ i.addr
    let n ← bytes i.vrType
    put σ i.dst (Bpf.load n σ.mem (a + i.addrOff.signExtend 64))
  | .storeraw => do
    let a ← addrVal σ i.addr
    let n ← bytes i.vrType
    let x ← val σ i.v0
    some { σ with mem := Bpf.store n σ.mem (a + i.addrOff.signExtend 64) x }
  | .neg => do
    let x ← val σ i.v0
    let w ← width i.aluOp
    put σ i.dst (negate w x)
  | .htobe => do
    let x ← val σ i.v0
    let y ← swapVal true i.aux x
    put σ i.dst y
  | .htole => do
    let x ← val σ i.v0
    let y ← swapVal false i.aux x
    put σ i.dst y
  | .assign => do
    let x ← val σ i.v0
    put σ i.dst (if i.aluOp = .w32 then truncBytes 4 x else x)
  | .call => some (doCall W i.aux σ)
  | _ => do
    let o ← aluOp i.op
    let w ← width i.aluOp
    let x ← val σ i.v0
    let y ← val σ i.v1
    put σ i.dst (alu w o x y)

/-- Does the conditional jump go to its second target (`bb2`)? -/
def taken (i : FInsn) (σ : St) : Option Bool := do
  let c ← condOp i.op
  let w ← width i.aluOp
  let x ← val σ i.v0
  let y ← val σ i.v1
  some (cond w c x y)

/-- The value returned by `ret`: its operand, or r0 when it has none. -/
def retVal (i : FInsn) (σ : St) : Option (BitVec 64) :=
  if i.valueNum = 0 then some (σ.reg 0) else val σ i.v0

end Verif.Flat
