import Verif.Spec.Loc
import Verif.Spec.Live
import Verif.Spec.Place
/-!
# Specification: from the SSA semantics to the semantics on places
-/
namespace Verif.Lower
open Verif Verif.IR Verif.Loc

/-- The same outcome of an execution of an SSA function and one of a function with places. -/
inductive SameOut : IR.Res → Loc.Res → Prop
  | done (x : BitVec 64) (σ : IR.St) (τ : Loc.St) : τ.mem = σ.mem → τ.trace = σ.trace → SameOut (.done x σ) (.done x τ)
  | thrown (σ : IR.St) (τ : Loc.St) : τ.mem = σ.mem → τ.trace = σ.trace → SameOut (.thrown σ) (.thrown τ)
  | running (b c : Nat) (r s : List Nat) (σ : IR.St) (τ : Loc.St) : τ.mem = σ.mem → τ.trace = σ.trace →
      SameOut (.running b r σ) (.running c s τ)

/-- Every execution of the SSA function `f` from `σ` that has a meaning is one of `g` with the places `k` from `τ`: whatever `f` has
done after `n` steps (result, memory, helper calls with their arguments), `g` has done after at least as many. -/
def Keeps (W : World) (f : Fn) (g : Fn) (k : Nat → Nat) (σ : IR.St) (τ : Loc.St) : Prop :=
  ∀ n, IR.runFn W f n σ = .stuck ∨ ∃ m, n ≤ m ∧ SameOut (IR.runFn W f n σ) (Loc.runFn W g k m τ)

/-- The machine is started with the arguments in r1, r2, ... and the stack pointer in r10.  (Variables that have not been stored to
hold whatever their places hold.) -/
structure Starts (f : Fn) (σ : IR.St) (τ : Loc.St) : Prop where
  args : ∀ i a, f.args[i]? = some a → τ.cell (i + 1) = σ.env a
  sp : τ.cell 10 = σ.env f.sp
  vars : ∀ a, (f.insn a).op = .alloc → τ.cell (virt a) = σ.var a
  mem : τ.mem = σ.mem
  trace : τ.trace = σ.trace

/-- Jumps, returns, throws and stores have no result. -/
def void (o : Op) : Bool := o = .ja || o.condJmp || o = .ret || o = .throw || o = .storeraw || o = .store

/-- The value an SSA instruction defines. -/
def own (f : Fn) (x : Nat) : Option Nat := if void (f.insn x).op then none else some x

/-- A function whose calls and arguments can be lowered in the blocks `R`: uses are listed, nothing jumps to the entry and it has no phis, there are
at most five arguments, variables are only loaded and stored, every value is defined before it is used, and a call has as many arguments as the helper takes. -/
structure Ready (f : Fn) (R : List Nat) : Prop where
  tidy : Tidy f
  users : UsersListed f
  flow : Flow f R
  blocks : ∀ b ∈ R, b ∈ f.allBbs
  nodup : R.Nodup
  entry : phisOf f f.entry = []
  loop : ∀ b ∈ R, f.entry ∉ f.succs b
  five : f.args.length ≤ 5
  distinct : f.args.Nodup
  sp : f.sp ∉ f.args
  fixed : ∀ y, y = f.sp ∨ y ∈ f.args → (f.insn y).op ≠ .alloc
  vars : ∀ b ∈ R, ∀ x ∈ f.body b, ∀ a, (f.insn a).op = .alloc → 0 < refs (f.insn x) a →
    (f.insn x).op = .load ∨ ((f.insn x).op = .store ∧ ∃ v, (f.insn x).vals = [.insn a, v] ∧ v ≠ .insn a)
  access : ∀ b ∈ R, ∀ x ∈ f.body b, (f.insn x).op = .load ∨ (f.insn x).op = .store → ∀ a, (f.insn x).vals.head? = some (.insn a) → (f.insn a).op = .alloc
  defined : ∀ y, IR.Needed f (own f) y f.entry (f.body f.entry) → y = f.sp ∨ y ∈ f.args ∨ (f.insn y).op = .alloc
  arity : ∀ b ∈ R, ∀ x ∈ f.body b, (f.insn x).op = .call → (f.insn x).vals.length = Lift.arity (f.insn x).aux ∧ (f.insn x).vals.length ≤ 5

/-- What the steps after the lowering need in addition: the arguments and the stack pointer have no operands; phis are at the start of their blocks, have no operands in `values`
and name blocks of the function; every load or store goes to a variable, and a variable is stored before it is loaded; raw loads have no operands in `values`. -/
structure Neat (f : Fn) (R : List Nat) : Prop where
  fixed : ∀ y, y = f.sp ∨ y ∈ f.args → ∀ z, refs (f.insn y) z = 0
  front : ∀ b ∈ f.allBbs, ∀ x ∈ codeOf f b, (f.insn x).op ≠ .phi
  phis : ∀ x, InBody f x → (f.insn x).op = .phi → (f.insn x).vals = []
  labels : ∀ x, InBody f x → ∀ o ∈ (f.insn x).phi, o.1 ∈ f.allBbs
  access : ∀ x, InBody f x → (f.insn x).op = .load ∨ (f.insn x).op = .store → ∃ a r, (f.insn x).vals = .insn a :: r ∧ (f.insn a).op = .alloc
  stored : ∀ a, (f.insn a).op = .alloc → ¬ Loc.Needed f virt (virt a) f.entry (f.body f.entry)
  raws : ∀ b ∈ R, ∀ x ∈ codeOf f b, (f.insn x).op = .loadraw → (f.insn x).vals = []

end Verif.Lower
