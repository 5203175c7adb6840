import Verif.Spec.Uses
/-!
# Specification: well-formed IR

The rules the checker enforces, on the reachable blocks `R` of a function.
-/
namespace Verif.IR
open Verif

/-- How many values an instruction must have, where that is fixed. -/
def arity : Op → Option Nat
  | .loadraw | .alloc | .ja | .phi | .allocarray | .throw => some 0
  | .storeraw | .load | .ret | .neg | .htobe | .htole => some 1
  | .store | .getelemptr
  | .add | .sub | .mul | .div | .or | .and | .lsh | .arsh | .rsh | .mod | .xor
  | .jeq | .jgt | .jge | .jlt | .jle | .jne | .jsge | .jsle | .jsgt | .jslt => some 2
  | _ => none

/-- Instructions that end a block. -/
def ends : Op → Bool
  | .ja | .ret | .throw | .jeq | .jgt | .jge | .jlt | .jle | .jne | .jsge | .jsle | .jsgt | .jslt => true
  | _ => false

/-- The value is the result of an instruction with operation `o`. -/
def IsOp (f : Fn) (o : Op) (v : Val) : Prop := ∃ a, v = .insn a ∧ (f.insn a).op = o

/-- A constant has a width. -/
def ConstOk : Val → Prop
  | .const .plain _ ct _ => ct ≠ .unknown
  | _ => True

/-- Operand counts, kinds and widths of one instruction. -/
structure InsnOk (f : Fn) (i : Insn) : Prop where
  arity : ∀ n, arity i.op = some n → i.vals.length = n
  swap : i.op = .htobe ∨ i.op = .htole → i.aux = 16 ∨ i.aux = 32 ∨ i.aux = 64
  var : i.op = .store ∨ i.op = .load → ∃ v vs, i.vals = v :: vs ∧ IsOp f .alloc v
  elem : i.op = .getelemptr → ∃ v w vs, i.vals = v :: w :: vs ∧ IsOp f .allocarray w
  fid : i.op = .call → i.aux ≠ 0
  width : i.op.binAlu = true ∨ i.op.condJmp = true → i.aluOp = .w32 ∨ i.aluOp = .w64
  size : i.op = .alloc ∨ i.op = .loadraw ∨ i.op = .storeraw → i.vrType ≠ .unknown
  consts : ∀ v ∈ i.vals, ConstOk v
  phiConsts : i.op = .phi → ∀ o ∈ i.phi, ConstOk o.2
  addrConst : i.op = .loadraw ∨ i.op = .storeraw → ConstOk i.addr

/-- What the last instruction says about the successors. -/
def SuccsOk (f : Fn) (b : Nat) (x : Nat) : Prop :=
  let i := f.insn x
  if i.op = .ret ∨ i.op = .throw then f.succs b = []
  else if i.op.condJmp = true then f.succs b = [i.bb1, i.bb2]
  else f.succs b = [i.bb1]

/-- Well-formed IR. -/
structure WellFormed (f : Fn) (R : List Nat) : Prop where
  parent : ∀ b ∈ R, ∀ x ∈ f.body b, f.parent x = b
  insns : ∀ b ∈ R, ∀ x ∈ f.body b, InsnOk f (f.insn x)
  /-- phis come first -/
  phis : ∀ b ∈ R, ∀ A x B, f.body b = A ++ x :: B → (f.insn x).op = .phi → ∀ a ∈ A, (f.insn a).op = .phi
  /-- whoever is listed as a user refers to the value -/
  users : ∀ y, (y = f.sp ∨ y ∈ f.args ∨ ∃ b ∈ R, y ∈ f.body b) → ∀ u ∈ f.users y, 0 < refs (f.insn u) y
  /-- whoever refers to a value is listed -/
  listed : ∀ b ∈ R, ∀ x ∈ f.body b, ∀ y, 0 < refs (f.insn x) y → x ∈ f.users y
  preds : ∀ b ∈ R, ∀ p ∈ f.preds b, b ∈ f.succs p
  succs : ∀ b ∈ R, ∀ s ∈ f.succs b, b ∈ f.preds s
  /-- jumps are last, and agree with the successors -/
  jumps : ∀ b ∈ R, ∀ A x B, f.body b = A ++ x :: B → ends (f.insn x).op = true → B = [] ∧ SuccsOk f b x
  fall : ∀ b ∈ R, (∀ x ∈ f.body b, ends (f.insn x).op = false) → ∃ t, f.succs b = [t]

end Verif.IR
