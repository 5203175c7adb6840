import Verif.Spec.Spill
/-!
# Specification: arrays on the stack
-/
namespace Verif.Cg
open Verif Verif.IR Verif.Edit Verif.Loc

/-- The bytes of an element. -/
def elemBytes : Norm.VrTy → Nat
  | .t8 => 1
  | .t16 => 2
  | .t32 => 4
  | .t64 => 8
  | .unknown => 0

/-- The bytes of an array. -/
def arrBytes (i : Insn) : Nat := i.aux.toNat * elemBytes i.vrType

/-- The arrays in the blocks `R` have no position yet, are not empty, and their sizes and those rounded up to a multiple of 8 are below 2^32. -/
def ArraysFit (s : Cg) (R : List Nat) : Prop := ∀ b ∈ R, ∀ x ∈ s.f.body b, (s.f.insn x).op = .allocarray →
  (s.pos x).allocated = false ∧ 0 < arrBytes (s.f.insn x) ∧ arrBytes (s.f.insn x) + 7 < 2 ^ 32

/-- The array `x` is on the stack, in the bytes from `lo` to below `hi`. -/
def OnStack (s : Cg) (x : Nat) (lo hi : Int) : Prop :=
  (s.pos x).allocated = true ∧ lo ≤ (s.pos x).spilled ∧ (s.pos x).spilled + arrBytes (s.f.insn x) ≤ hi

end Verif.Cg
