import Verif.Spec.Loc
import Verif.Spec.Uses
import Verif.Spec.Place
import Verif.Spec.Alloc
import Verif.Cg.Model
/-!
# Specification: spilling
-/
namespace Verif.Cg
open Verif Verif.IR Verif.Edit Verif.Loc

/-- The instruction can be spilled: it is in the function, it has a result, it is not an array, and it has no position yet. -/
structure Victim (s : Cg) (v : Nat) : Prop where
  inb : InBody s.f v
  op : hasResult (s.f.insn v).op = true ∧ (s.f.insn v).op ≠ .allocarray
  free : (s.pos v).allocated = false

/-- The instruction `v` is only used by a store to a 64-bit variable, and the stack slot of the variable is at offset `o`. -/
def Through (s : Cg) (o : Int) (v : Nat) : Prop := ∃ a st, InBody s.f a ∧ InBody s.f st ∧ s.f.insn a = mkAlloc .t64 ∧ s.f.insn st = mkStore a (.insn v) ∧
  (s.pos a).allocated = true ∧ (s.pos a).spilled = o ∧ ∀ w, Live s.f w → 0 < refs (s.f.insn w) v → w = st

/-- What is needed of a function: the users are listed, and only instructions in blocks are; the blocks `R` are closed under jumps, and the entry has no phis; phis are at
the start of their blocks and name blocks of the function; a load or store goes to a variable; calls (after `change_call`) and raw loads have no
operands in `values`; no virtual register is read before it is written; the slots given out so far are not below the offset `off`. -/
structure SpillReady (s : Cg) (R : List Nat) (off : Int) : Prop where
  tidy : Tidy s.f
  users : ∀ y, Live s.f y → (∀ x, Live s.f x → 0 < refs (s.f.insn x) y → x ∈ s.f.users y) ∧ ∀ x ∈ s.f.users y, InBody s.f x
  flow : Flow s.f R
  sub : ∀ b ∈ R, b ∈ s.f.allBbs
  entry : phisOf s.f s.f.entry = []
  front : ∀ b ∈ s.f.allBbs, ∀ x ∈ codeOf s.f b, (s.f.insn x).op ≠ .phi
  access : ∀ x, InBody s.f x → (s.f.insn x).op = .load ∨ (s.f.insn x).op = .store → ∃ a r, (s.f.insn x).vals = .insn a :: r ∧ (s.f.insn a).op = .alloc
  raws : ∀ b ∈ R, ∀ x ∈ codeOf s.f b, (s.f.insn x).op = .call ∨ (s.f.insn x).op = .loadraw → (s.f.insn x).vals = []
  labels : ∀ x, InBody s.f x → ∀ o ∈ (s.f.insn x).phi, o.1 ∈ s.f.allBbs
  phis : ∀ x, InBody s.f x → (s.f.insn x).op = .phi → (s.f.insn x).vals = []
  fresh : ∀ n, ¬ Loc.Needed s.f (places s.pos) (virt n) s.f.entry (s.f.body s.f.entry)
  le : off ≤ 0
  pos : ∀ x, (s.pos x).allocated = true → off ≤ (s.pos x).spilled

end Verif.Cg
