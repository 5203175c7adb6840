import Verif.Spec.Loc
import Verif.Spec.Live
import Verif.Spec.Trail
import Verif.Spec.Place
/-!
# Specification: functions ready for register assignment
-/
namespace Verif.Loc
open Verif Verif.IR
open Verif.Norm (VrPos)

/-- Instructions that leave a value at their own place (or reserve it: `alloc`). -/
def hasResult (o : Op) : Bool := !(control o && o ≠ .phi) && o ≠ .store && o ≠ .storeraw && o ≠ .call

/-- A function in which registers can be assigned: `R` are the reachable blocks; phis are at the front and not in the entry; an instruction with a result
is its own destination; every virtual register is defined before it is used, every variable is stored to before it is loaded,
and variables are not in machine registers. -/
structure AllocReady (f : Fn) (R : List Nat) (dst : Nat → Option Nat) (pos : Nat → VrPos) : Prop where
  blocks : ∀ b ∈ R, b ∈ f.allBbs ∧ Conn f b
  front : ∀ b ∈ R, ∀ x ∈ codeOf f b, (f.insn x).op ≠ .phi
  entry : phisOf f f.entry = []
  self : ∀ b ∈ R, ∀ x ∈ f.body b, dst x = if hasResult (f.insn x).op then some x else none
  defined : ∀ v, (pos v).allocated = false → ¬ IR.Needed f dst v f.entry (f.body f.entry)
  stored : ∀ b ∈ R, ∀ pre a rest, f.body b = pre ++ a :: rest → (f.insn a).op = .alloc → (pos a).allocated = false →
    ¬ Needed f (places pos) (virt a) b rest
  vars : ∀ b ∈ R, ∀ x ∈ f.body b, (f.insn x).op = .store → ∀ a, (f.insn x).vals.head? = some (.insn a) → 10 < places pos a

/-- When a virtual register is written, the machine register `r` it is renamed to is not still needed (except if it is the one that is
copied). -/
structure RegsKept (f : Fn) (R : List Nat) (l k : Nat → Nat) : Prop where
  insns : ∀ b ∈ R, ∀ pre x rest, f.body b = pre ++ x :: rest → ∀ r, r < 10 → Needed f l r b rest →
    ∀ y, l y ∈ writes l x (f.insn x) → 10 < l y → k y = r → Copies l (f.insn x) r
  phis : ∀ b ∈ R, ∀ r, r < 10 → Needed f l r b (codeOf f b) → ∀ x ∈ phisOf f b, 10 < l x → k x ≠ r

end Verif.Loc
