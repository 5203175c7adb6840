import Verif.IR.Syntax
import Verif.Spec.Blocks
/-!
# Model of flattening (core/ir_cg_norm.c:79-184)

`dst x` and `pos x` are the fields `dst` and `vr_pos` of the code generation data of `x`.  Freeing the lists of users
(`remove_all_users`) is left out.
-/
namespace Verif.Flatten
open Verif Verif.IR
open Verif.Norm (VrPos FVal FInsn)

/-- One operand, core/ir_cg_norm.c:103-113 -/
def flatVal (dst : Nat → Option Nat) (pos : Nat → VrPos) : Val → Out FVal
  | .const k c t b => .ok (.const k c t b)
  | .insn y => if dst y = some y then .ok (.pos (pos y)) else .crit
  | .undef => .ok .other

/-- The operands in `values`, core/ir_cg_norm.c:99-114 -/
def flatVals (dst : Nat → Option Nat) (pos : Nat → VrPos) : List Val → Out (List FVal)
  | [] => .ok []
  | v :: vs => do
    let w ← flatVal dst pos v
    let ws ← flatVals dst pos vs
    .ok (w :: ws)

/-- The address, an operand of raw loads and stores only (`bpf_ir_get_operands`, core/ir_insn.c) -/
def flatAddr (dst : Nat → Option Nat) (pos : Nat → VrPos) (i : Insn) : Out FVal :=
  if i.op = .loadraw ∨ i.op = .storeraw then flatVal dst pos i.addr else .ok .other

/-- The type of the variable of a load or store, core/ir_cg_norm.c:87-98 -/
def varType (f : Fn) (i : Insn) : Out VrTy :=
  if i.op = .load ∨ i.op = .store then
    match i.vals with
    | .insn a :: _ => if (f.insn a).op = .alloc then .ok (f.insn a).vrType else .crit
    | _ => .crit
  else .ok i.vrType

/-- The position of the result, core/ir_cg_norm.c:127-138.  (The loop changes positions on the way; this makes no difference if the destination of a
destination is the destination itself.) -/
def resPos (dst : Nat → Option Nat) (pos : Nat → VrPos) (x : Nat) : VrPos :=
  match dst x with
  | none => ⟨false, 0, 0⟩
  | some d => pos d

/-- The flattened instruction. -/
def flatInsn (f : Fn) (dst : Nat → Option Nat) (pos : Nat → VrPos) (x : Nat) : Out FInsn := do
  let i := f.insn x
  let t ← varType f i
  let vs ← flatVals dst pos i.vals
  let a ← flatAddr dst pos i
  .ok { op := i.op, v0 := vs[0]?.getD .other, v1 := vs[1]?.getD .other, valueNum := i.vals.length, vrType := t, addr := a, addrOff := i.addrOff,
        aluOp := i.aluOp, bb1 := i.bb1, bb2 := i.bb2, aux := i.aux, immKind := i.immKind, imm64 := i.imm64, dst := resPos dst pos x }

/-- The instructions of a block. -/
def flatInsns (f : Fn) (dst : Nat → Option Nat) (pos : Nat → VrPos) : List Nat → Out (List FInsn)
  | [] => .ok []
  | x :: xs => do
    let i ← flatInsn f dst pos x
    let r ← flatInsns f dst pos xs
    .ok (i :: r)

/-- `flatten_ir`, core/ir_cg_norm.c:176-184, on the blocks `R`. -/
def flatten (f : Fn) (dst : Nat → Option Nat) (pos : Nat → VrPos) : List Nat → Out (List Flat.Block)
  | [] => .ok []
  | b :: bs => do
    let is ← flatInsns f dst pos (f.body b)
    let r ← flatten f dst pos bs
    .ok (⟨b, is⟩ :: r)

end Verif.Flatten
