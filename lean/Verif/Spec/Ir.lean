import Verif.IR.Syntax
import Verif.Spec.Flat
/-!
# Specification: meaning of the SSA IR

Every instruction that produces a value has one 64-bit cell (`env`); phi nodes of a block are evaluated
together when the block is entered, each taking the operand listed for the block control came from;
`alloc` variables have cells of their own (`var`); memory and helper calls are those of the BPF machine.
`none` and `stuck` mean "no meaning" (ill-formed program).
-/
namespace Verif.IR
open Verif Verif.Bpf

/-- Run-time state. -/
structure St where
  env : Nat → BitVec 64
  var : Nat → BitVec 64
  mem : Mem
  trace : List Event

/-- The surroundings: the BPF world, where the stack arrays are, and how many bytes of the `alloc` variable
`x` are kept (those of its type if it lives on the stack, 8 if it lives in a register). -/
structure World where
  bpf : Bpf.World
  arr : Nat → BitVec 64
  wid : Nat → Nat

def St.set (σ : St) (x : Nat) (v : BitVec 64) : St :=
  { σ with env := fun y => if y = x then v else σ.env y }

/-- Value of an operand. -/
def eval (σ : St) : Val → Option (BitVec 64)
  | .const _ c _ _ => some c
  | .insn x => some (σ.env x)
  | .undef => none

/-- Values of all operands. -/
def evalAll (σ : St) : List Val → Option (List (BitVec 64))
  | [] => some []
  | v :: vs => do
    let x ← eval σ v
    let xs ← evalAll σ vs
    some (x :: xs)

/-- Effect of the instruction `i` called `x`, when it is not a jump, return, throw or phi. -/
def exec (W : World) (x : Nat) (i : Insn) (σ : St) : Option St :=
  match i.op with
  | .alloc => some σ
  | .allocarray => some (σ.set x (W.arr x))
  | .getelemptr =>
    match i.vals with
    | [v0, v1] => do
      let o ← eval σ v0
      let b ← eval σ v1
      some (σ.set x (b + o))
    | _ => none
  | .store =>
    match i.vals with
    | [.insn a, v] => do
      let y ← eval σ v
      some { σ with var := fun z => if z = a then y else σ.var z }
    | _ => none
  | .load =>
    match i.vals with
    | [.insn a] => some (σ.set x (Flat.truncBytes (W.wid a) (σ.var a)))
    | _ => none
  | .loadimm => some (σ.set x (if i.immKind = 0 then i.imm64 else W.bpf.ldimm i.immKind i.imm64))
  | .loadraw => do
    let a ← eval σ i.addr
    let n ← Flat.bytes i.vrType
    some (σ.set x (Bpf.load n σ.mem (a + i.addrOff.signExtend 64)))
  | .storeraw =>
    match i.vals with
    | [v] => do
      let a ← eval σ i.addr
      let n ← Flat.bytes i.vrType
      let y ← eval σ v
      some { σ with mem := Bpf.store n σ.mem (a + i.addrOff.signExtend 64) y }
    | _ => none
  | .neg =>
    match i.vals with
    | [v] => do
      let y ← eval σ v
      let w ← Flat.width i.aluOp
      some (σ.set x (negate w y))
    | _ => none
  | .htobe =>
    match i.vals with
    | [v] => do
      let y ← eval σ v
      let z ← swapVal true i.aux y
      some (σ.set x z)
    | _ => none
  | .htole =>
    match i.vals with
    | [v] => do
      let y ← eval σ v
      let z ← swapVal false i.aux y
      some (σ.set x z)
    | _ => none
  | .assign =>
    match i.vals with
    | [v] => do
      let y ← eval σ v
      some (σ.set x (if i.aluOp = .w32 then Flat.truncBytes 4 y else y))
    | _ => none
  | .call => do
    let as ← evalAll σ i.vals
    let r := W.bpf.call σ.trace i.aux as σ.mem
    some { (σ.set x r.ret) with mem := r.mem, trace := σ.trace ++ [⟨i.aux, as⟩] }
  | _ =>
    match i.vals with
    | [v0, v1] => do
      let o ← Flat.aluOp i.op
      let w ← Flat.width i.aluOp
      let y ← eval σ v0
      let z ← eval σ v1
      some (σ.set x (alu w o y z))
    | _ => none

/-- Does the conditional jump go to `bb2`? -/
def taken (i : Insn) (σ : St) : Option Bool :=
  match i.vals with
  | [v0, v1] => do
    let c ← Flat.condOp i.op
    let w ← Flat.width i.aluOp
    let x ← eval σ v0
    let y ← eval σ v1
    some (cond w c x y)
  | _ => none

/-- The value of a phi when control comes from block `p`. -/
def phiVal (i : Insn) (p : Nat) (σ : St) : Option (BitVec 64) := do
  let o ← i.phi.find? (fun o => o.1 == p)
  eval σ o.2

/-- Phis at the start of a block. -/
def phisOf (f : Fn) (b : Nat) : List Nat := (f.body b).takeWhile (fun x => (f.insn x).op == .phi)

/-- The instructions behind them. -/
def codeOf (f : Fn) (b : Nat) : List Nat := (f.body b).dropWhile (fun x => (f.insn x).op == .phi)

/-- Assign the phis `xs` from block `p`, all reading the old state `σ`. -/
def phiAssign (f : Fn) (p : Nat) (σ : St) : List Nat → Option (Nat → BitVec 64)
  | [] => some σ.env
  | x :: xs => do
    let v ← phiVal (f.insn x) p σ
    let e ← phiAssign f p σ xs
    some (fun y => if y = x then v else e y)

inductive Step where
  | goto (b : Nat) (rest : List Nat) (σ : St)
  | done (x : BitVec 64)
  | thrown
  | stuck

/-- Go from block `p` to block `b`. -/
def enter (f : Fn) (p b : Nat) (σ : St) : Step :=
  match phiAssign f p σ (phisOf f b) with
  | some e => .goto b (codeOf f b) { σ with env := e }
  | none => .stuck

/-- One step in block `b` with the instructions `rest` left. -/
def step (W : World) (f : Fn) (b : Nat) : List Nat → St → Step
  | [], σ =>
    match f.succs b with
    | [t] => enter f b t σ
    | _ => .stuck
  | x :: rest, σ =>
    let i := f.insn x
    if i.op = .ja then enter f b i.bb1 σ
    else if i.op.condJmp then
      match taken i σ with
      | some true => enter f b i.bb2 σ
      | some false => enter f b i.bb1 σ
      | none => .stuck
    else if i.op = .ret then
      match i.vals with
      | [v] => (match eval σ v with | some y => .done y | none => .stuck)
      | _ => .stuck
    else if i.op = .throw then .thrown
    else if i.op = .phi then .stuck
    else
      match exec W x i σ with
      | some σ' => .goto b rest σ'
      | none => .stuck

inductive Res where
  | done (x : BitVec 64) (σ : St)
  | thrown (σ : St)
  | running (b : Nat) (rest : List Nat) (σ : St)
  | stuck

/-- At most `n` steps. -/
def run (W : World) (f : Fn) : Nat → Nat → List Nat → St → Res
  | 0, b, rest, σ => .running b rest σ
  | n + 1, b, rest, σ =>
    match step W f b rest σ with
    | .goto b' rest' σ' => run W f n b' rest' σ'
    | .done x => .done x σ
    | .thrown => .thrown σ
    | .stuck => .stuck

/-- Run the function from its entry.  `σ` gives the arguments and the stack pointer. -/
def runFn (W : World) (f : Fn) (n : Nat) (σ : St) : Res := run W f n f.entry (f.body f.entry) σ

end Verif.IR
