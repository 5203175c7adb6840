import Verif.Spec.Ir
import Verif.Spec.Flatten
/-!
# Specification: the bytecode does what the function in SSA form does
-/
namespace Verif.Compile
open Verif Verif.IR Verif.Loc Verif.Flatten
open Verif.Norm (VrPos)

/-- The machine has done what the SSA function has done: memory outside of the slots of spilled values and calls are the same. -/
def SameEffect (f : Fn) (R : List Nat) (pos : Nat → VrPos) (p : BitVec 64) (σ : IR.St) (μ : Bpf.St) : Prop :=
  (∀ a, ¬ InFrame f R pos p a → μ.mem a = σ.mem a) ∧ μ.trace.map cut = σ.trace

/-- The bytecode does what the SSA function does: it returns what the function returns, with effects related by `E`, and runs for ever if the function does; if it
returns, so does the function (or it is stuck, on a meaningless operation). -/
structure Implements (W : World) (f : Fn) (σ : IR.St) (M : Bpf.World) (code : List Bpf.Slot) (μ : Bpf.St) (E : IR.St → Bpf.St → Prop) : Prop where
  returns : ∀ n x σ', IR.runFn W f n σ = .done x σ' → ∃ m μ', Bpf.run M code m 0 μ = .done x μ' ∧ E σ' μ'
  forever : (∀ n, ∃ b r σ', IR.runFn W f n σ = .running b r σ') → ∀ m, ∃ pc μ', Bpf.run M code m 0 μ = .goto pc μ'
  only : ∀ m x μ', Bpf.run M code m 0 μ = .done x μ' → (∃ n σ', IR.runFn W f n σ = .done x σ' ∧ E σ' μ') ∨ ∃ n, IR.runFn W f n σ = .stuck

/-- The machine starts with the arguments in r1, r2, ... and the frame pointer `p` in r10; the stack pointer of the SSA function is `d` above it.  Memory
outside of the bytes `frame` and the calls so far are the same. -/
structure Begins (f : Fn) (p d : BitVec 64) (frame : BitVec 64 → Prop) (σ : IR.St) (μ : Bpf.St) : Prop where
  r10 : μ.reg 10 = p
  sp : σ.env f.sp = p + d
  args : ∀ i a, f.args[i]? = some a → μ.reg (i + 1) = σ.env a
  mem : ∀ a, ¬ frame a → μ.mem a = σ.mem a
  trace : μ.trace.map cut = σ.trace

/-- The instructions of the blocks `R` and their operands. -/
def namesOf (f : Fn) (R : List Nat) : List Nat :=
  R.flatMap fun b => (f.body b).flatMap fun x => x :: (((f.insn x).addr :: (f.insn x).vals).flatMap fun v => match v with | .insn y => [y] | _ => [])

/-- The offset of the slot with the place `q`. -/
def offsetAt (q : Nat) : Int := if q % 3 = 2 then -(((q - 11) / 3 : Nat) : Int) else (((q - 12) / 3 : Nat) : Int)

/-- The contents of the places when the machine starts in `μ`: registers, slots (of an array, its address), and variables that have no place yet. -/
def startAt (f : Fn) (R : List Nat) (pos : Nat → VrPos) (p : BitVec 64) (σ : IR.St) (μ : Bpf.St) : Loc.St where
  cell q :=
    if q ≤ 10 then μ.reg q
    else if q % 3 = 1 then σ.var ((q - 13) / 3)
    else if (namesOf f R).any (fun y => decide ((f.insn y).op = .allocarray) && decide ((pos y).spilled = offsetAt q)) then p + BitVec.ofInt 64 (offsetAt q)
    else Bpf.load 8 μ.mem (p + BitVec.ofInt 64 (offsetAt q))
  mem := σ.mem
  trace := σ.trace

end Verif.Compile
