import Verif.Links.Model
/-!
# Sequences in memory

Nodes with pointers to the next and the previous node stand for a sequence.
-/
namespace Verif.Links
open Verif Verif.IR

/-- From `a` over the nodes `xs` to `z`, forwards and backwards. -/
def Chain (h : Heap) : Ptr → List Ptr → Ptr → Prop
  | a, [], z => h.next a = z ∧ h.prev z = a
  | a, x :: xs, z => (h.next a = x ∧ h.prev x = a) ∧ Chain h x xs z

/-- The list with head `hd` holds the sequence `xs`. -/
structure IsList (h : Heap) (hd : Ptr) (xs : List Ptr) : Prop where
  chain : Chain h hd xs hd
  nodup : (hd :: xs).Nodup
  live : ∀ p ∈ hd :: xs, h.live p = true

/-- The nodes outside of `S` are what they were. -/
def Same (h h' : Heap) (S : List Ptr) : Prop := ∀ q, q ∉ S → h'.next q = h.next q ∧ h'.prev q = h.prev q ∧ h'.live q = h.live q

/-- The lists of the blocks hold their instructions. -/
def Holds (h : Heap) (f : Fn) : Prop := ∀ b ∈ f.allBbs, IsList h (.head b) ((f.body b).map .insn)

/-- The same outcome, with related states. -/
def Sim {σ τ : Type} (rel : σ → τ → Prop) : Out σ → Out τ → Prop
  | .ok s, .ok t => rel s t
  | .err, .err => True
  | .crit, .crit => True
  | .ub, .ub => True
  | _, _ => False

end Verif.Links
