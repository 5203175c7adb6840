import Verif.Spec.Flat
/-!
# Specification: running a program of basic blocks of allocated IR instructions

A program is a list of blocks, each with a name (a number) and a list of instructions.  Instructions
run one after the other with the meaning of `Verif/Spec/Flat.lean`; `ja` continues at the start of
`bb1`, a conditional jump at the start of `bb2` when the comparison holds and at the start of `bb1`
otherwise, `ret` ends the run with a value; after the last instruction of a block without a jump
control continues in the block's successor.  The order of the blocks in the list plays no role.
-/
namespace Verif.Flat
open Verif Verif.Norm Verif.Bpf

structure Block where
  id : Nat
  insns : List FInsn
  deriving Repr, DecidableEq, Inhabited

inductive Res where
  | done (x : BitVec 64) (σ : St)
  | running
  | stuck

/-- Instructions of the block called `t`. -/
def body (bs : List Block) (t : Nat) : Option (List FInsn) :=
  (bs.find? (fun b => b.id == t)).map (·.insns)

/-- What one step leads to: block `cur` with instructions `rest` left, the end, or nothing. -/
inductive Step where
  | goto (cur : Nat) (rest : List FInsn) (σ : St)
  | done (x : BitVec 64)
  | stuck

/-- Continue at the start of block `t`. -/
def enter (bs : List Block) (t : Nat) (σ : St) : Step :=
  match body bs t with
  | some is => .goto t is σ
  | none => .stuck

/-- One step from the instructions left in block `cur`; `succ` names the successor of blocks that end
without a jump. -/
def stepB (W : World) (bs : List Block) (succ : Nat → Option Nat) (cur : Nat) : List FInsn → St → Step
  | [], σ =>
    match succ cur with
    | some t => enter bs t σ
    | none => .stuck
  | i :: rest, σ =>
    if i.op = .ja then enter bs i.bb1 σ
    else if i.op.condJmp then
      match taken i σ with
      | some true => enter bs i.bb2 σ
      | some false => enter bs i.bb1 σ
      | none => .stuck
    else if i.op = .ret then
      match retVal i σ with
      | some x => .done x
      | none => .stuck
    else
      match exec W i σ with
      | some σ' => .goto cur rest σ'
      | none => .stuck

/-- Run at most `n` steps. -/
def runB (W : World) (bs : List Block) (succ : Nat → Option Nat) :
    Nat → Nat → List FInsn → St → Res
  | 0, _, _, _ => .running
  | n + 1, cur, rest, σ =>
    match stepB W bs succ cur rest σ with
    | .goto cur' rest' σ' => runB W bs succ n cur' rest' σ'
    | .done x => .done x σ
    | .stuck => .stuck

end Verif.Flat
