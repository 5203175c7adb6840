import Verif.Norm.Model
/-!
# The IR of ePass: instructions, values, functions

Instructions and blocks are named by numbers (the C code uses pointers).  Enumerations are shared with
`Verif/Norm/Model.lean`.
-/
namespace Verif.IR
open Verif
export Verif.Norm (Op AluTy VrTy CKind Builtin)

/-- `struct ir_value`, core/include/linux/bpf_ir.h:424-441: a constant (`constant_d`, `const_type`,
`builtin_const`), the result of an instruction, or undefined.  `raw_pos` and `raw_stack` are left out. -/
inductive Val where
  | const (k : CKind) (c : BitVec 64) (ct : AluTy) (b : Builtin)
  | insn (x : Nat)
  | undef
  deriving Repr, DecidableEq, Inhabited

/-- `struct ir_insn`, core/include/linux/bpf_ir.h:533-582.  `vals` are `values[0..value_num)`; the union
`fid/fun_arg_id/reg_id/array_num/swap_width` is `aux`; `users` and list pointers are kept in `Fn`. -/
structure Insn where
  op : Op
  vals : List Val := []
  phi : List (Nat × Val) := []
  addr : Val := .undef
  addrOff : BitVec 16 := 0
  addrKind : CKind := .plain
  aluOp : AluTy := .unknown
  vrType : VrTy := .unknown
  bb1 : Nat := 0
  bb2 : Nat := 0
  aux : BitVec 32 := 0
  immKind : Nat := 0
  imm64 : BitVec 64 := 0
  deriving Repr, DecidableEq, Inhabited

/-- `struct ir_function` with the instruction and block heaps. -/
structure Fn where
  insn : Nat → Insn
  users : Nat → List Nat
  next : Nat
  parent : Nat → Nat
  body : Nat → List Nat
  preds : Nat → List Nat
  succs : Nat → List Nat
  allBbs : List Nat
  entry : Nat
  sp : Nat
  args : List Nat

end Verif.IR
