import Verif.Spec.Uses
/-!
# Specification: a value is needed on some path
-/
namespace Verif.IR

/-- Starting in block `b` before the instructions `rest`, some path through the function uses the value `v` before
an instruction defines it again.  `dst x` is the value the instruction `x` defines.  A phi reads its operand at the end
of the block the operand is labelled with. -/
inductive Needed (f : Fn) (dst : Nat → Option Nat) (v : Nat) : Nat → List Nat → Prop
  | use {b s rest} : (f.insn s).op ≠ .phi → 0 < refs (f.insn s) v → Needed f dst v b (s :: rest)
  | skip {b s rest} : dst s ≠ some v → Needed f dst v b rest → Needed f dst v b (s :: rest)
  | phi {b c p} : c ∈ f.succs b → p ∈ f.body c → (f.insn p).op = .phi → (b, Val.insn v) ∈ (f.insn p).phi →
      Needed f dst v b []
  | jump {b c} : c ∈ f.succs b → Needed f dst v c (f.body c) → Needed f dst v b []

end Verif.IR
