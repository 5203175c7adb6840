import Verif.IR.Syntax
/-!
# Specification: uses of instructions, and edits of a function
-/
namespace Verif.IR

/-- How many times the instruction `i` refers to the instruction `y`: as a value, as a phi operand, as the
address of a raw load or store. -/
def refs (i : Insn) (y : Nat) : Nat :=
  i.vals.count (.insn y) + (if i.op = .phi then i.phi.countP (fun o => o.2 == .insn y) else 0) +
  (if (i.op = .loadraw ∨ i.op = .storeraw) ∧ i.addr = .insn y then 1 else 0)

/-- The instruction is in one of the blocks. -/
def InBody (f : Fn) (x : Nat) : Prop := ∃ b ∈ f.allBbs, x ∈ f.body b

/-- The instruction exists: it is the stack pointer, an argument, or in a block. -/
def Live (f : Fn) (x : Nat) : Prop := x = f.sp ∨ x ∈ f.args ∨ InBody f x

/-- The value does not refer to an erased instruction. -/
def LiveVal (f : Fn) : Val → Prop
  | .insn y => Live f y
  | _ => True

/-- An instruction is listed as a user exactly as many times as it refers to the value. -/
def UsersExact (f : Fn) : Prop :=
  ∀ y, Live f y → (∀ x, Live f x → (f.users y).count x = refs (f.insn x) y) ∧ ∀ x ∈ f.users y, Live f x

/-- An instruction is listed as a user if and only if it refers to the value (what the checker tests). -/
def UsersListed (f : Fn) : Prop :=
  ∀ y, Live f y → (∀ x, Live f x → (x ∈ f.users y ↔ 0 < refs (f.insn x) y)) ∧ ∀ x ∈ f.users y, Live f x

/-- What every function built with the interface satisfies: instruction numbers below `next` are taken,
operands exist, an instruction is in one place only and its parent is the block it is in. -/
structure Tidy (f : Fn) : Prop where
  lt : ∀ x, Live f x → x < f.next
  closed : ∀ x y, Live f x → 0 < refs (f.insn x) y → Live f y
  parent : ∀ b ∈ f.allBbs, ∀ x ∈ f.body b, f.parent x = b
  nodup : ∀ b ∈ f.allBbs, (f.body b).Nodup
  fixed : ∀ b ∈ f.allBbs, ∀ x ∈ f.body b, x ≠ f.sp ∧ x ∉ f.args

/-- Successor and predecessor lists say the same, list no block twice and only blocks of the function. -/
structure Graph (f : Fn) : Prop where
  sym : ∀ a ∈ f.allBbs, ∀ b ∈ f.allBbs, b ∈ f.succs a ↔ a ∈ f.preds b
  succs : ∀ a ∈ f.allBbs, (f.succs a).Nodup ∧ ∀ b ∈ f.succs a, b ∈ f.allBbs
  preds : ∀ a ∈ f.allBbs, (f.preds a).Nodup ∧ ∀ b ∈ f.preds a, b ∈ f.allBbs

end Verif.IR
