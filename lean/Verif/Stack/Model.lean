import Verif.Edit.Model
/-!
# Model of the stack layout (core/ir_cg.c:224-259, 1004-1064, 1212-1258, core/passes/cg_prepare.c:50-96)
-/
namespace Verif.Stack
open Verif Verif.IR

/-- `get_new_spill`, core/ir_cg.c:224-228: the new `stack_offset` (`s32` minus `u32`, modulo 2^32), which is also the
place of the new slot. -/
def newSpill (off size : BitVec 32) : BitVec 32 := off - size

/-- `bpf_ir_sizeof_vr_type`, core/bpf_ir.c:819-833 -/
def sizeOf : VrTy → Out (BitVec 32)
  | .t8 => .ok 1
  | .t16 => .ok 2
  | .t32 => .ok 4
  | .t64 => .ok 8
  | .unknown => .crit

/-- A place on the stack: `vr_pos.spilled` and `vr_pos.spilled_size`. -/
structure Slot where
  at_ : BitVec 32
  size : BitVec 32
  deriving Repr, DecidableEq

/-- `spill_array` for one instruction, core/ir_cg.c:239-256 -/
def spillArr (off : BitVec 32) (num : BitVec 32) (ty : VrTy) : Out (BitVec 32 × Slot) := do
  let n ← sizeOf ty
  let size := num * n
  if size = 0 then .err
  else
    let r := newSpill off ((size + 7) &&& ~~~7)
    .ok (r, ⟨r, size⟩)

/-- The slot of a spilled value or variable, core/ir_cg.c:1040-1043 -/
def spillVal (off : BitVec 32) : BitVec 32 × Slot :=
  let r := newSpill off 8
  (r, ⟨r, 8⟩)

/-- What asks for stack space: an array of `num` elements, or a spilled value. -/
inductive Req where
  | arr (num : BitVec 32) (ty : VrTy)
  | val
  deriving Repr, DecidableEq

def place (off : BitVec 32) : Req → Out (BitVec 32 × Slot)
  | .arr num ty => spillArr off num ty
  | .val => .ok (spillVal off)

/-- All requests of a compilation in order; the first component is the final `stack_offset`. -/
def layout : BitVec 32 → List Req → Out (BitVec 32 × List Slot)
  | off, [] => .ok (off, [])
  | off, r :: rs => do
    let a ← place off r
    let b ← layout a.1 rs
    .ok (b.1, a.2 :: b.2)

/-! ## Moving the stack of the program -/

/-- `val->data.constant_d += offset` etc., core/ir_cg.c:1241-1254 -/
def shiftVal (d : BitVec 16) : Val → Val
  | .const .rawoff c ct b => .const .plain (c + d.signExtend 64) ct b
  | .const .rawoffRev c ct b => .const .plain (c - d.signExtend 64) ct b
  | v => v

/-- The body of the loop of `add_stack_offset`, core/ir_cg.c:1222-1256 -/
def shiftInsn (d : BitVec 16) (i : Insn) : Insn :=
  if i.op = .loadraw ∨ i.op = .storeraw then
    match i.addrKind with
    | .rawoff => { i with addrOff := i.addrOff + d, addrKind := .plain }
    | .rawoffRev => { i with addrOff := i.addrOff - d, addrKind := .plain }
    | .plain => Edit.mapOps (shiftVal d) i
  else Edit.mapOps (shiftVal d) i

/-- `add_stack_offset`, core/ir_cg.c:1212-1258 (called with the `s32` `stack_offset` converted to `s16`). -/
def shift (d : BitVec 16) (f : Fn) : Fn := { f with insn := fun x => shiftInsn d (f.insn x) }

/-- The pointers returned by `bpf_ir_get_operands`, core/ir_insn.c:134-159, in order. -/
def ptrs (i : Insn) : List Edit.Ptr :=
  (List.range i.vals.length).map .val ++ (if i.op = .phi then (List.range i.phi.length).map .phi else []) ++
  (if Edit.raw i.op then [.addr] else [])

/-- One operand of `x`: if it is the stack pointer, use a new `sp + hole` instead, core/passes/cg_prepare.c:75-91. -/
def holeOne (x : Nat) (f : Fn) (p : Edit.Ptr) : Out Fn :=
  if Edit.getPtr (f.insn x) p = some (.insn f.sp) then do
    let f1 ← Edit.createAt f (Edit.mkBin .add .w64 (.insn f.sp) (.const .rawoff 0 .w32 .none)) x .front
    Edit.changeValue f1 x p (.insn f.next)
  else .ok f

def holeAll (x : Nat) : Fn → List Edit.Ptr → Out Fn
  | f, [] => .ok f
  | f, p :: ps => do
    let f ← holeOne x f p
    holeAll x f ps

/-- `? = ALU SP CONST`: the constant becomes a hole, core/passes/cg_prepare.c:65-72. -/
def constHole (f : Fn) (i : Insn) : Option Insn :=
  match i.vals with
  | .insn y :: .const .plain c ct b :: vs =>
    if i.op.binAlu ∧ y = f.sp then some { i with vals := .insn y :: .const .rawoff c ct b :: vs } else none
  | _ => none

/-- One round of the loop, core/passes/cg_prepare.c:58-93. -/
def preOne (f : Fn) (x : Nat) : Out Fn :=
  if (f.insn x).op = .loadraw ∨ (f.insn x).op = .storeraw then .ok f
  else
    match constHole f (f.insn x) with
    | some i => .ok { f with insn := Edit.upd f.insn x i }
    | none => holeAll x f (ptrs (f.insn x))

/-- Rounds `k`, `k+1`, ... (`n` of them).  The array is not copied: the `k`-th entry is the one found there when
its turn comes.  (Its reallocation, after which the loop would read freed memory, is not modelled.) -/
def preLoop : Nat → Nat → Fn → Out Fn
  | _, 0, f => .ok f
  | k, n + 1, f =>
    match (f.users f.sp)[k]? with
    | some x => do
      let f ← preOne f x
      preLoop (k + 1) n f
    | none => .ub

/-- `bpf_ir_cg_add_stack_offset_pre_cg`, core/passes/cg_prepare.c:50-96 (`raw_stack` operands, made by the msan
pass only, are left out). -/
def pre (f : Fn) : Out Fn := preLoop 0 (f.users f.sp).length f

end Verif.Stack
