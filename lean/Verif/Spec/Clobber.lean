import Verif.Spec.Init
import Verif.Spec.Ir
import Verif.Spec.Flatten
/-!
# Specification: registers that a call has spoilt
-/
namespace Verif.Bpf

/-- There is a way from the first slot over a call to slot `p` on which the argument register `r` is not written after the call. -/
inductive Stale (P : List Slot) (r : Nat) : Nat → Prop
  | call {p q : Nat} {s : Slot} {fid : BitVec 32} : SlotReach P p → P[p]? = some s → decode s = some (.call fid) → 1 ≤ r → r ≤ 5 → (q : Int) ∈ flow P p → q < P.length → Stale P r q
  | next {p q : Nat} {s : Slot} : Stale P r p → P[p]? = some s → (∀ i, decode s = some i → writes i ≠ some r) → (q : Int) ∈ flow P p → q < P.length → Stale P r q

/-- An instruction reads one of r1 to r5 although a call has spoilt it on some way to it. -/
def ReadsStale (P : List Slot) : Prop :=
  ∃ (p : Nat) (s : Slot) (i : Instr) (r : Nat), P[p]? = some s ∧ decode s = some i ∧ r ∈ reads i ∧ Stale P r p

/-- The helpers of the machine `M` do what those of `W` do, and look only at the arguments they take.  Nothing is said about what they leave in r1 to r5. -/
structure Helps (M : World) (W : IR.World) : Prop where
  ldimm : W.bpf.ldimm = M.ldimm
  ret : ∀ tr fid (args : List (BitVec 64)) mem, args.length = 5 → (M.call tr fid args mem).ret = (W.bpf.call (tr.map Flatten.cut) fid (args.take (Lift.arity fid)) mem).ret
  mem : ∀ tr fid (args : List (BitVec 64)) mem, args.length = 5 → (M.call tr fid args mem).mem = (W.bpf.call (tr.map Flatten.cut) fid (args.take (Lift.arity fid)) mem).mem

end Verif.Bpf
