import Verif.Heap.Model
/-!
# The memory that a function owns
-/
namespace Verif.Heap
open Verif

/-- The memory of an array. -/
def Arr.own {α : Type} (a : Arr α) : List Ptr := a.data.toList

/-- The memory of an instruction. -/
def Insn.own (i : Insn) : List Ptr := [i.self] ++ (i.users.own ++ (i.phi.map Arr.own).getD [])

/-- The memory of a block without its instructions. -/
def Block.own (b : Block) : List Ptr := [b.self] ++ (b.preds.own ++ b.succs.own)

/-- The memory of some instructions and blocks. -/
def parts (is : List Insn) (bs : List Block) : List Ptr := is.flatMap Insn.own ++ bs.flatMap Block.own

/-- All memory of a function. -/
def Fn.own (f : Fn) : List Ptr := [f.self] ++ (parts f.insns f.blocks ++ (f.all.own ++ (f.reach.own ++ f.ends.own)))

/-- A state in which the memory is that of the function and `x`: nothing is in two places, and nothing else is allocated.
Instructions are in blocks of the function, and the blocks found last are blocks of the function, each once. -/
structure Sound (x : List Ptr) (s : St) : Prop where
  live : s.h.live.Perm (s.f.own ++ x)
  once : s.h.live.Nodup
  below : ∀ p ∈ s.h.live, p < s.h.next
  home : ∀ i ∈ s.f.insns, ∀ b, i.home = .block b → ∃ y ∈ s.f.blocks, y.self = b
  reach : ∀ b ∈ s.f.reach.elems, ∃ y ∈ s.f.blocks, y.self = b
  distinct : s.f.reach.elems.Nodup

/-- No phi with an array is erased by the edit `e` in the state `s`. -/
def Spares (s : St) : Edit → Prop
  | .erase p => ∀ i ∈ s.f.insns, i.self = p → ∀ a, i.phi = some a → a.data = none
  | _ => True

/-- No phi with an array is erased by any of the edits. -/
def SparesAll : List Edit → St → Prop
  | [], _ => True
  | e :: es, s => Spares s e ∧ ∀ s', step e s = .ok s' → SparesAll es s'

/-- The instruction is in a block that was not found. -/
def Insn.lost (f : Fn) (i : Insn) : Bool :=
  match i.home with
  | .block b => !f.reach.elems.contains b
  | _ => false

/-- What `bpf_ir_free_function` leaves: the function itself, and blocks that were not found with their instructions. -/
def Fn.rest (f : Fn) : List Ptr :=
  [f.self] ++ parts (f.insns.filter (Insn.lost f)) (f.blocks.filter (fun b => !f.reach.elems.contains b.self))

end Verif.Heap
