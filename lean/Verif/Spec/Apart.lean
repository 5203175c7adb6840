import Verif.Spec.Cfg
/-!
# Programs in which control does not merge behind divisions
-/
namespace Verif.Bpf

/-- The instruction divides. -/
def divides : Option Instr → Bool
  | some (.alu _ .div _ _) => true
  | _ => false

/-- From a division on, up to and including the next jump or exit, no slot leads to a slot that another slot leads to as well. -/
def Apart (P : List Slot) : Prop := ∀ p s, P[p]? = some s → divides (decode s) = true → ∀ q, p ≤ q → (∀ j, p ≤ j → j < q → ¬ isTerminator P j) →
  ∀ t ∈ flow P q, ∀ q', t ∈ flow P q' → q' = q

end Verif.Bpf
