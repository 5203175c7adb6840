import Verif.Spec.Uses
import Verif.Spec.WellFormed
/-!
# Specification of dead code
-/
namespace Verif.Dead
open Verif Verif.IR

/-- Instructions with an effect of their own: jumps, returns, throws, stores and calls. -/
def effect (o : Op) : Bool := ends o || o = .store || o = .storeraw || o = .call

/-- `a` is used as a variable only: its users load it or store something else to it, and nobody uses a store. -/
def Variable (f : Fn) (a : Nat) : Prop :=
  ∀ u ∈ f.users a, ((f.insn u).op = .load ∧ (f.insn u).vals = [.insn a]) ∨
    ((f.insn u).op = .store ∧ (∃ v, (f.insn u).vals = [.insn a, v] ∧ v ≠ .insn a) ∧ f.users u = [])

/-- The stack pointer and the arguments are not stores. -/
def Fixed (f : Fn) : Prop := ∀ x, x = f.sp ∨ x ∈ f.args → (f.insn x).op ≠ .store

/-- Nobody loads the variable. -/
def NoLoad (f : Fn) (a : Nat) : Prop := ∀ u ∈ f.users a, (f.insn u).op ≠ .load

end Verif.Dead
