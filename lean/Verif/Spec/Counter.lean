import Verif.Edit.Model
import Verif.Spec.Trail
/-!
# Specification: counters
-/
namespace Verif.Count
open Verif Verif.IR Verif.Edit

/-- A counter in block `b`: the block ends with load, add, store and a jump to `t` or to the error block `e`. -/
structure Site (g : Fn) (a b t e l ad s j : Nat) (v : Val) (lim : BitVec 32) : Prop where
  inB : b ∈ g.allBbs
  load : g.insn l = mkLoad (.insn a)
  add : g.insn ad = mkBin .add .w64 (.insn l) v
  store : g.insn s = mkStore a (.insn ad)
  jump : g.insn j = mkJbin .jgt .w64 (.insn ad) (const32 lim) t e
  succs : g.succs b = [t, e]
  ne : t ≠ e
  body : ∃ A, g.body b = A ++ [l, ad, s, j]
  err : ∃ th, g.body e = [th] ∧ g.insn th = mkThrow
  inE : e ∈ g.allBbs

/-- Block `b` counts in the variable `a` up to `lim`. -/
def Counts (g : Fn) (a : Nat) (lim : BitVec 32) (b : Nat) : Prop := ∃ t e l ad s j v, Site g a b t e l ad s j v lim

/-- The blocks `C` contain a way back to each of them: a cycle, or several. -/
structure Cyclic (g : Fn) (C : List Nat) : Prop where
  nonempty : C ≠ []
  pred : ∀ c ∈ C, ∃ p ∈ C, p ∈ g.preds c

/-- The block of `h` in which the last instruction of the old block `c` is now. -/
def nowAt (f h : Fn) (c : Nat) : Nat :=
  match (f.body c).getLast? with
  | none => c
  | some x => h.parent x

/-- The instruction with the labels of its phi operands renamed. -/
def relab (m : Nat → Nat) (i : Insn) : Insn := { i with phi := i.phi.map fun o => (m o.1, o.2) }

/-- `h` with the labels of the phis brought up to date: where the last jump of a block of `f` has been moved to a block of
its own, control comes from there. -/
def relabel (f h : Fn) : Fn := { h with insn := fun x => relab (nowAt f h) (h.insn x) }

/-- The number filled in for the length of block `b` is at most `cost b`. -/
def Costs (g h : Fn) (cost : Nat → Nat) : Prop :=
  ∀ b, Conn g b → ∀ x ∈ g.body b, ∀ (c : BitVec 64) ct, .const .plain c ct .bbInsnCnt ∈ (h.insn x).vals → c.toNat ≤ cost b

/-- The function does not use the length of a block. -/
def NoCount (f : Fn) : Prop := ∀ b ∈ f.allBbs, ∀ x ∈ f.body b, ∀ k c ct, .const k c ct .bbInsnCnt ∉ operands (f.insn x)

/-- The number of jumps (returns and throws included) in a block: at most one, see `Shape.last`. -/
def jumpsIn (f : Fn) (b : Nat) : Nat := ((f.body b).filter fun x => ends (f.insn x).op).length

/-- What the blocks `l` cost together. -/
def total (cost : Nat → Nat) (l : List Nat) : Nat := (l.map cost).sum

/-- The blocks entered in at most `k` steps from the entry, and the entry. -/
def visited (W : World) (f : Fn) (k : Nat) (σ : St) : List Nat := f.entry :: trail W f k f.entry (f.body f.entry) σ

end Verif.Count
