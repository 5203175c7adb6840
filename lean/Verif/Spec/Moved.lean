import Verif.Spec.Loc
/-!
# Specification: moving the stack of a function whose values have places
-/
namespace Verif.Stack
open Verif Verif.IR Verif.Loc

/-- r10 of the second state is higher by `-d`; everything else is the same. -/
structure MovedL (d : BitVec 64) (τ τ' : Loc.St) : Prop where
  cell : ∀ q, q ≠ 10 → τ'.cell q = τ.cell q
  sp : τ.cell 10 = τ'.cell 10 + d
  mem : τ'.mem = τ.mem
  trace : τ'.trace = τ.trace

/-- The same result, with states that differ in r10 only. -/
inductive MovedOut (d : BitVec 64) : Loc.Res → Loc.Res → Prop
  | done (x : BitVec 64) (τ τ' : Loc.St) : MovedL d τ τ' → MovedOut d (.done x τ) (.done x τ')
  | thrown (τ τ' : Loc.St) : MovedL d τ τ' → MovedOut d (.thrown τ) (.thrown τ')
  | running (b : Nat) (r : List Nat) (τ τ' : Loc.St) : MovedL d τ τ' → MovedOut d (.running b r τ) (.running b r τ')
  | stuck : MovedOut d .stuck .stuck

/-- The instruction `x` works on r10 only by way of the stack pointer: its operands other than the stack pointer are elsewhere, and it does not
write to r10. -/
structure OneSp (f : Fn) (l : Nat → Nat) (x : Nat) : Prop where
  vals : ∀ y, .insn y ∈ (f.insn x).vals → y ≠ f.sp → l y ≠ 10
  addr : (f.insn x).op = .loadraw ∨ (f.insn x).op = .storeraw → ∀ y, (f.insn x).addr = .insn y → y ≠ f.sp → l y ≠ 10
  phi : (f.insn x).op = .phi → ∀ o ∈ (f.insn x).phi, ∀ y, o.2 = .insn y → y ≠ f.sp → l y ≠ 10
  writes : 10 ∉ writes l x (f.insn x)
  dst : (f.insn x).op = .phi → l x ≠ 10

/-- Optional states that are both absent or both present and related. -/
inductive OptRel' (R : Loc.St → Loc.St → Prop) : Option Loc.St → Option Loc.St → Prop
  | some {a b : Loc.St} : R a b → OptRel' R (some a) (some b)
  | none : OptRel' R none none

end Verif.Stack
