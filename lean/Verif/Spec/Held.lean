import Verif.Spec.Uses
import Verif.Spec.Trail
/-!
# Specification: ring buffer reservations
-/
namespace Verif.Throw
open Verif Verif.IR

/-- `bpf_ringbuf_reserve` -/
def isReserve (i : Insn) : Bool := i.op = .call && i.aux = 0x83

/-- `bpf_ringbuf_submit` or `bpf_ringbuf_discard` -/
def isRelease (i : Insn) : Bool := i.op = .call && (i.aux = 0x84 || i.aux = 0x85)

/-- The instruction gives the reservation `q` back. -/
def releases (i : Insn) (q : Nat) : Bool := isRelease i && i.vals.head? = some (.insn q)

/-- Is the reservation `q` held after the instruction `x`, when `h` says whether it was before? -/
def heldStep (f : Fn) (q : Nat) (h : Bool) (x : Nat) : Bool := if x = q then true else if releases (f.insn x) q then false else h

/-- Is the reservation made by the instruction `q` held after the instructions `H`: has it been made, and not been given
back since? -/
def held (f : Fn) (q : Nat) (H : List Nat) : Bool := H.foldl (heldStep f q) false

/-- `q` is a reservation of the function. -/
def Reserves (f : Fn) (q : Nat) : Prop := InBody f q ∧ isReserve (f.insn q) = true

/-- No instruction of the block gives `q` back. -/
def Keeps (f : Fn) (q b : Nat) : Prop := ∀ x ∈ f.body b, releases (f.insn x) q = false

/-- `q` is held at the end of block `b` because it is made in `b` and not given back there, or because it is held at the
end of all blocks before `b` and not given back in `b`.  (An inductive definition: there must be a reason that does not
depend on itself, so being held through a loop does not count.) -/
inductive Kept (f : Fn) (q : Nat) : Nat → Prop
  | here {b : Nat} : q ∈ f.body b → isReserve (f.insn q) = true → Keeps f q b → Kept f q b
  | join {b : Nat} : f.preds b ≠ [] → (∀ p ∈ f.preds b, Kept f q p) → Keeps f q b → Kept f q b

/-- The ways from the entry to a block, the last block first. -/
inductive Ways (f : Fn) : List Nat → Prop
  | entry : Ways f [f.entry]
  | step {a b : Nat} {w : List Nat} : Ways f (a :: w) → b ∈ f.succs a → Ways f (b :: a :: w)

/-- Is `q` held after the blocks of the way `w` (last block first)? -/
def heldWay (f : Fn) (q : Nat) (w : List Nat) : Bool := held f q (w.reverse.flatMap f.body)

end Verif.Throw
