import Verif.Spec.Ir
/-!
# Specification: states that agree on some names, related results
-/
namespace Verif.IR
open Verif

/-- The states agree on the values and variables named by `P`, on memory and on the calls made. -/
structure Agree (P : Nat → Prop) (σ σ' : St) : Prop where
  env : ∀ y, P y → σ'.env y = σ.env y
  var : ∀ y, P y → σ'.var y = σ.var y
  mem : σ'.mem = σ.mem
  trace : σ'.trace = σ.trace

/-- Results that are the same up to a relation of states: same returned value, both thrown, both stuck, or
both still running (anywhere). -/
inductive RelRes (R : St → St → Prop) : Res → Res → Prop
  | done (x : BitVec 64) (σ σ' : St) : R σ σ' → RelRes R (.done x σ) (.done x σ')
  | thrown (σ σ' : St) : R σ σ' → RelRes R (.thrown σ) (.thrown σ')
  | running (b c : Nat) (r s : List Nat) (σ σ' : St) : R σ σ' → RelRes R (.running b r σ) (.running c s σ')
  | stuck : RelRes R .stuck .stuck

/-- Optional values that are both absent or both present and related. -/
inductive OptRel {α : Type} (R : α → α → Prop) : Option α → Option α → Prop
  | some (a b : α) : R a b → OptRel R (some a) (some b)
  | none : OptRel R none none

end Verif.IR
