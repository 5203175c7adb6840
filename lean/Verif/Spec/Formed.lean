import Verif.Spec.Cfg
/-!
# Specification: a program made of whole instructions

What a loader checks before it looks at what a program does: every slot is an instruction or the second half of
a wide load, both halves of every wide load are there, jumps lead to the start of an instruction or to the end of
the program.  This is `WellShaped` without the two conditions on reachability and on jumps back to slot 0.
-/
namespace Verif.Bpf

structure Formed (P : List Slot) : Prop where
  legal : Legal P
  first : ∀ s, P[0]? = some s → s.code ≠ 0
  half : ∀ (p : Nat) (s : Slot), P[p + 1]? = some s → s.code = 0 → ∃ s' d k, P[p]? = some s' ∧ decode s' = some (.ldimm d k)
  into : ∀ (p : Nat) (s : Slot) (i : Instr) (off : BitVec 16), P[p]? = some s → decode s = some i → jumpOffset i = some off →
    ∀ (t : Nat) (s' : Slot), (t : Int) = p + 1 + off.toInt → P[t]? = some s' → s'.code ≠ 0

end Verif.Bpf
