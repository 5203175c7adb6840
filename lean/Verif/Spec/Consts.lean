import Verif.IR.Syntax
/-!
# Specification: operands that machine instructions cannot have
-/
namespace Verif.Cg
open Verif Verif.IR

/-- Operand `j` of the instruction is a constant that has no encoding there: the left operand of an arithmetic instruction that is not commutative is
a register, and so is one of the two operands of a conditional jump. -/
inductive Unfit (i : Insn) : Nat → Prop
  | alu {k c t b} : i.op.binAlu = true → i.op ∉ [.add, .mul, .or, .and, .xor] → i.vals[0]? = some (.const k c t b) → Unfit i 0
  | jmp {k c t b k' c' t' b'} : i.op.condJmp = true → i.vals = [.const k c t b, .const k' c' t' b'] → Unfit i 1

end Verif.Cg
