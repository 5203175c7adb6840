import Verif.Spec.Cfg
import Verif.Lift.Model
/-!
# Specification: registers that are read before they are written
-/
namespace Verif.Bpf

def Src.regs : Src → List Nat
  | .reg r => [r.toNat]
  | .imm _ => []

/-- The registers an instruction reads (of a call, those that hold the arguments the helper takes). -/
def reads : Instr → List Nat
  | .alu _ op d src => if op = .mov then src.regs else d.toNat :: src.regs
  | .neg _ d => [d.toNat]
  | .swap _ d _ => [d.toNat]
  | .ldimm _ _ => []
  | .ldx _ _ _ s _ => [s.toNat]
  | .st _ d _ _ => [d.toNat]
  | .stx _ d s _ => [d.toNat, s.toNat]
  | .ja _ => []
  | .jcc _ _ d src _ => d.toNat :: src.regs
  | .call fid => (List.range (Lift.arity fid)).map (· + 1)
  | .exit => [0]

/-- The register an instruction writes. -/
def writes : Instr → Option Nat
  | .alu _ _ d _ => some d.toNat
  | .neg _ d => some d.toNat
  | .swap _ d _ => some d.toNat
  | .ldimm d _ => some d.toNat
  | .ldx _ _ d _ _ => some d.toNat
  | .call _ => some 0
  | _ => none

/-- Instructions the lifter knows: wide loads of the kinds 0 to 6, no `JSET`, helpers whose number of arguments is fixed. -/
def Supported : Instr → Prop
  | .ldimm _ k => k.toNat ≤ 6
  | .jcc _ c _ _ _ => c ≠ .set
  | .call fid => ∃ k, Lift.helperArgs[fid.toNat]? = some k ∧ 0 ≤ k
  | _ => True

/-- There is a way from the first slot to slot `p` on which register `r` is not written; at the start, only r1 to r5 and r10 have a value. -/
inductive Unset (P : List Slot) (r : Nat) : Nat → Prop
  | first : 0 < P.length → ¬ (1 ≤ r ∧ r ≤ 5) → r ≠ 10 → Unset P r 0
  | next {p q : Nat} {s : Slot} : Unset P r p → P[p]? = some s → (∀ i, decode s = some i → writes i ≠ some r) → (q : Int) ∈ flow P p → q < P.length → Unset P r q

/-- The instructions use r0 to r10 only. -/
def KnownRegs (P : List Slot) : Prop := ∀ s ∈ P, ∀ i, decode s = some i → (∀ r ∈ reads i, r ≤ 10) ∧ ∀ d, writes i = some d → d ≤ 10

/-- A conditional jump to the next slot: control goes on there in either case. -/
def Pointless : Instr → Prop
  | .jcc _ _ _ _ off => off = 0
  | _ => False

/-- An instruction that is not supported. -/
def Unknown (P : List Slot) : Prop := ∃ s ∈ P, ∃ i, decode s = some i ∧ ¬ Pointless i ∧ ¬ Supported i

/-- An instruction reads a register that has no value on some way to it. -/
def ReadsUnset (P : List Slot) : Prop :=
  ∃ (p : Nat) (s : Slot) (i : Instr) (r : Nat), P[p]? = some s ∧ decode s = some i ∧ ¬ Pointless i ∧ r ∈ reads i ∧ Unset P r p

end Verif.Bpf
