import Verif.Spec.Loc
import Verif.Spec.Place
import Verif.Spec.Blocks
import Verif.Spec.Alloc
/-!
# Specification: places as registers and bytes below the frame pointer

A function whose values have places (`Verif/Spec/Loc.lean`) runs on a machine with registers and memory only: the slots of spilled values are bytes of the
memory.  `p` is the frame pointer, r10.
-/
namespace Verif.Flatten
open Verif Verif.IR Verif.Loc
open Verif.Norm (VrPos)

/-- `y` is an instruction of the blocks `R` or an operand of one. -/
def Names (f : Fn) (R : List Nat) (y : Nat) : Prop :=
  ∃ b ∈ R, ∃ x ∈ f.body b, y = x ∨ .insn y ∈ (f.insn x).vals ∨ (f.insn x).addr = .insn y

/-- The position is a stack slot. -/
def OnStack (q : VrPos) : Prop := q.allocated = true ∧ q.spilled ≠ 0

/-- Where it is. -/
def slot (p : BitVec 64) (q : VrPos) : BitVec 64 := p + BitVec.ofInt 64 q.spilled

/-- `y` is a value that is in a stack slot (an array is not a value, but the bytes themselves). -/
def Spilled (f : Fn) (R : List Nat) (pos : Nat → VrPos) (y : Nat) : Prop := Names f R y ∧ (f.insn y).op ≠ .allocarray ∧ OnStack (pos y)

/-- The byte `a` belongs to the slot of a value. -/
def InFrame (f : Fn) (R : List Nat) (pos : Nat → VrPos) (p a : BitVec 64) : Prop := ∃ y, Spilled f R pos y ∧ (a - slot p (pos y)).toNat < 8

/-- A call with the arguments the helper takes. -/
def cut (e : Bpf.Event) : Bpf.Event := ⟨e.fid, e.args.take (Lift.arity e.fid)⟩

/-- The machine state `σ` is the state `τ` of the places: registers, slots, the addresses of the arrays, memory outside of the slots, calls. -/
structure Mirror (f : Fn) (R : List Nat) (pos : Nat → VrPos) (p : BitVec 64) (τ : Loc.St) (σ : Bpf.St) : Prop where
  sp : σ.reg 10 = p
  regs : ∀ r, r ≤ 10 → σ.reg r = τ.cell r
  slots : ∀ y, Spilled f R pos y → Bpf.load 8 σ.mem (slot p (pos y)) = τ.cell (placeOf (pos y))
  arrays : ∀ y, Names f R y → (f.insn y).op = .allocarray → τ.cell (placeOf (pos y)) = slot p (pos y)
  mem : ∀ a, ¬ InFrame f R pos p a → σ.mem a = τ.mem a
  trace : σ.trace.map cut = τ.trace

/-- A function ready to be flattened: no phis and throws are left, every operand has a position and is its own destination, so has every result, and r10 is
not written to.  Arrays are on the stack, and used only as the base of an address; what is used as a base is not a spilled value.  Slots are
the same or do not overlap. -/
structure Placed (f : Fn) (R : List Nat) (dst : Nat → Option Nat) (pos : Nat → VrPos) : Prop where
  plain : ∀ b ∈ R, ∀ x ∈ f.body b, (f.insn x).op ≠ .phi ∧ (f.insn x).op ≠ .throw
  operand : ∀ b ∈ R, ∀ x ∈ f.body b, ∀ y, .insn y ∈ (f.insn x).vals ∨ (f.insn x).addr = .insn y → dst y = some y ∧ (pos y).allocated = true
  result : ∀ b ∈ R, ∀ x ∈ f.body b, hasResult (f.insn x).op = true → (f.insn x).op ≠ .alloc →
    dst x = some x ∧ (pos x).allocated = true ∧ ((pos x).spilled = 0 → (pos x).reg ≠ 10)
  vars : ∀ b ∈ R, ∀ x ∈ f.body b, (f.insn x).op = .load ∨ (f.insn x).op = .store →
    ∃ a r, (f.insn x).vals = .insn a :: r ∧ (f.insn a).op = .alloc ∧ ((pos a).spilled = 0 → (pos a).reg ≠ 10)
  arrays : ∀ y, Names f R y → (f.insn y).op = .allocarray → OnStack (pos y)
  values : ∀ b ∈ R, ∀ x ∈ f.body b, ∀ y, .insn y ∈ (f.insn x).vals → (f.insn y).op = .allocarray →
    (f.insn x).op = .getelemptr ∧ ∃ v, (f.insn x).vals = [v, .insn y] ∧ v ≠ .insn y
  bases : ∀ b ∈ R, ∀ x ∈ f.body b, (f.insn x).op = .getelemptr → ∀ v w, (f.insn x).vals = [v, w] →
    ∃ y, w = .insn y ∧ (OnStack (pos y) → (f.insn y).op = .allocarray)
  addrs : ∀ b ∈ R, ∀ x ∈ f.body b, (f.insn x).op = .loadraw ∨ (f.insn x).op = .storeraw →
    (∀ y, (f.insn x).addr = .insn y → OnStack (pos y) → (f.insn y).op = .allocarray) ∧ ∀ k c t u, (f.insn x).addr = .const k c t u → k = .plain
  apart : ∀ y z, Spilled f R pos y → Spilled f R pos z →
    (pos y).spilled = (pos z).spilled ∨ (pos y).spilled + 8 ≤ (pos z).spilled ∨ (pos z).spilled + 8 ≤ (pos y).spilled
  clear : ∀ y z, Spilled f R pos y → Names f R z → (f.insn z).op = .allocarray → (pos y).spilled ≠ (pos z).spilled
  range : ∀ y, Names f R y → -2 ^ 31 ≤ (pos y).spilled ∧ (pos y).spilled < 2 ^ 31

/-- The surroundings of the machine and of the function on places: arrays are where they have been put, variables have the width of their type, and
helpers do the same, look only at the arguments they take, and neither read nor write the slots of the values. -/
structure Serves (f : Fn) (R : List Nat) (pos : Nat → VrPos) (p : BitVec 64) (M : Bpf.World) (W : World) : Prop where
  arr : ∀ y, Names f R y → (f.insn y).op = .allocarray → W.arr y = slot p (pos y)
  wid : ∀ y, Names f R y → (f.insn y).op = .alloc → Flat.bytes (f.insn y).vrType = some (W.wid y)
  ldimm : W.bpf.ldimm = M.ldimm
  ret : ∀ tr fid as m m', as.length = 5 → (∀ a, ¬ InFrame f R pos p a → m' a = m a) →
    (M.call tr fid as m').ret = (W.bpf.call (tr.map cut) fid (as.take (Lift.arity fid)) m).ret
  clob : ∀ tr fid as m m', as.length = 5 → (∀ a, ¬ InFrame f R pos p a → m' a = m a) → ∀ k,
    (M.call tr fid as m').clob k = (W.bpf.call (tr.map cut) fid (as.take (Lift.arity fid)) m).clob k
  mem : ∀ tr fid as m m', as.length = 5 → (∀ a, ¬ InFrame f R pos p a → m' a = m a) → ∀ a, ¬ InFrame f R pos p a →
    (M.call tr fid as m').mem a = (W.bpf.call (tr.map cut) fid (as.take (Lift.arity fid)) m).mem a
  frame : ∀ tr fid as m a, InFrame f R pos p a → (M.call tr fid as m).mem a = m a

/-- In the execution from `τ` no load or store of the program touches the slots of the values. -/
def Sane (W : World) (f : Fn) (R : List Nat) (pos : Nat → VrPos) (p : BitVec 64) (τ : Loc.St) : Prop :=
  ∀ n b x rest τ', Loc.runFn W f (places pos) n τ = .running b (x :: rest) τ' → (f.insn x).op = .loadraw ∨ (f.insn x).op = .storeraw →
    ∀ A m i, eval (view (places pos) τ') (f.insn x).addr = some A → Flat.bytes (f.insn x).vrType = some m → i < m →
      ¬ InFrame f R pos p (A + (f.insn x).addrOff.signExtend 64 + BitVec.ofNat 64 i)

/-- The successor of a block that ends without a jump. -/
def next (f : Fn) (b : Nat) : Option Nat := match f.succs b with | [t] => some t | _ => none

/-- The outcomes of the function on places and of the flattened program. -/
inductive Follows (f : Fn) (R : List Nat) (pos : Nat → VrPos) (p : BitVec 64) : Loc.Res → Flat.Res → Prop
  | done (x : BitVec 64) (τ : Loc.St) (σ : Bpf.St) : Mirror f R pos p τ σ → Follows f R pos p (.done x τ) (.done x σ)
  | running (b : Nat) (r : List Nat) (τ : Loc.St) : Follows f R pos p (.running b r τ) .running

end Verif.Flatten
