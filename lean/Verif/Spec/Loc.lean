import Verif.Spec.Ir
import Verif.Lift.Model
/-!
# Specification: meaning of an IR function whose values have places

Code generation gives every value a place: a machine register (places 0..10) or another cell (a stack slot, or, before
registers are assigned, a virtual register).  A function `f` with the places `l` works on the contents of the places:
an instruction computes what it computes in the SSA semantics (`Verif/Spec/Ir.lean`) from the contents of the places of its
operands, and puts the result at its own place.  A variable (`alloc`) is its place.  A helper call takes its arguments
from the registers r1, r2, ..., as many as the helper takes (`Lift.arity`, the table `helper_func_arg_num`), leaves the result in r0
and destroys r1..r5, as on the BPF machine.
-/
namespace Verif.Loc
open Verif Verif.IR

/-- Run-time state: contents of the places, memory, calls made. -/
structure St where
  cell : Nat → BitVec 64
  mem : Bpf.Mem
  trace : List Bpf.Event

def St.set (τ : St) (q : Nat) (v : BitVec 64) : St := { τ with cell := fun r => if r = q then v else τ.cell r }

/-- The contents of the places as values of the instructions. -/
def view (l : Nat → Nat) (τ : St) : IR.St where
  env y := τ.cell (l y)
  var y := τ.cell (l y)
  mem := τ.mem
  trace := τ.trace

/-- The registers in which the helper `fid` gets its arguments. -/
def argRegs (fid : BitVec 32) : List Nat := [1, 2, 3, 4, 5].take (Lift.arity fid)

/-- Effect of a helper call. -/
def doCall (W : Bpf.World) (fid : BitVec 32) (τ : St) : St :=
  let as := (argRegs fid).map τ.cell
  let r := W.call τ.trace fid as τ.mem
  { cell := fun q => if q = 0 then r.ret else if 1 ≤ q ∧ q ≤ 5 then r.clob q else τ.cell q
    mem := r.mem
    trace := τ.trace ++ [⟨fid, as⟩] }

/-- Effect of the instruction `i` called `x`, when it is not a jump, return, throw or phi. -/
def exec (W : World) (l : Nat → Nat) (x : Nat) (i : Insn) (τ : St) : Option St :=
  match i.op with
  | .alloc => some τ
  | .call => some (doCall W.bpf i.aux τ)
  | .store =>
    match i.vals with
    | [.insn a, v] => do
      let y ← eval (view l τ) v
      some (τ.set (l a) y)
    | _ => none
  | .storeraw => do
    let σ ← IR.exec W x i (view l τ)
    some { τ with mem := σ.mem }
  | _ => do
    let σ ← IR.exec W x i (view l τ)
    some (τ.set (l x) (σ.env x))

/-- Assign the phis `xs` from block `p` one after the other, all reading the old state `τ`. -/
def phiAssign (f : Fn) (l : Nat → Nat) (p : Nat) (τ : St) : List Nat → (Nat → BitVec 64) → Option (Nat → BitVec 64)
  | [], e => some e
  | x :: xs, e => do
    let v ← phiVal (f.insn x) p (view l τ)
    phiAssign f l p τ xs (fun q => if q = l x then v else e q)

inductive Step where
  | goto (b : Nat) (rest : List Nat) (τ : St)
  | done (x : BitVec 64)
  | thrown
  | stuck

/-- Go from block `p` to block `b`. -/
def enter (f : Fn) (l : Nat → Nat) (p b : Nat) (τ : St) : Step :=
  match phiAssign f l p τ (phisOf f b) τ.cell with
  | some e => .goto b (codeOf f b) { τ with cell := e }
  | none => .stuck

/-- One step in block `b` with the instructions `rest` left. -/
def step (W : World) (f : Fn) (l : Nat → Nat) (b : Nat) : List Nat → St → Step
  | [], τ =>
    match f.succs b with
    | [t] => enter f l b t τ
    | _ => .stuck
  | x :: rest, τ =>
    let i := f.insn x
    if i.op = .ja then enter f l b i.bb1 τ
    else if i.op.condJmp then
      match taken i (view l τ) with
      | some true => enter f l b i.bb2 τ
      | some false => enter f l b i.bb1 τ
      | none => .stuck
    else if i.op = .ret then
      match i.vals with
      | [v] => (match eval (view l τ) v with | some y => .done y | none => .stuck)
      | _ => .stuck
    else if i.op = .throw then .thrown
    else if i.op = .phi then .stuck
    else
      match exec W l x i τ with
      | some τ' => .goto b rest τ'
      | none => .stuck

inductive Res where
  | done (x : BitVec 64) (τ : St)
  | thrown (τ : St)
  | running (b : Nat) (rest : List Nat) (τ : St)
  | stuck

/-- At most `n` steps. -/
def run (W : World) (f : Fn) (l : Nat → Nat) : Nat → Nat → List Nat → St → Res
  | 0, b, rest, τ => .running b rest τ
  | n + 1, b, rest, τ =>
    match step W f l b rest τ with
    | .goto b' rest' τ' => run W f l n b' rest' τ'
    | .done x => .done x τ
    | .thrown => .thrown τ
    | .stuck => .stuck

/-- Run the function from its entry. -/
def runFn (W : World) (f : Fn) (l : Nat → Nat) (n : Nat) (τ : St) : Res := run W f l n f.entry (f.body f.entry) τ

/-- The same outcome: the returned value, or that an exception was thrown, and the memory and the calls made. -/
inductive SameOut : Res → Res → Prop
  | done (x : BitVec 64) (τ τ' : St) : τ'.mem = τ.mem → τ'.trace = τ.trace → SameOut (.done x τ) (.done x τ')
  | thrown (τ τ' : St) : τ'.mem = τ.mem → τ'.trace = τ.trace → SameOut (.thrown τ) (.thrown τ')
  | running (b c : Nat) (r s : List Nat) (τ τ' : St) : τ'.mem = τ.mem → τ'.trace = τ.trace →
      SameOut (.running b r τ) (.running c s τ')

/-- Every execution of `f` with the places `l` that has a meaning is one of `g` with the places `k`: whatever `f` has
done after `n` steps, `g` has done after at least as many (so if one of them returns or throws, the other one does, too,
and with the same result). -/
def Keeps (W : World) (f : Fn) (l : Nat → Nat) (g : Fn) (k : Nat → Nat) (τ : St) : Prop :=
  ∀ n, runFn W f l n τ = .stuck ∨ ∃ m, n ≤ m ∧ SameOut (runFn W f l n τ) (runFn W g k m τ)

/-! ## Places that are still needed -/

/-- The place of an operand. -/
def place (l : Nat → Nat) : Val → List Nat
  | .insn y => [l y]
  | _ => []

/-- The places an instruction reads. -/
def reads (l : Nat → Nat) (i : Insn) : List Nat :=
  match i.op with
  | .call => argRegs i.aux
  | .store => i.vals.tail.flatMap (place l)
  | .loadraw => place l i.addr
  | .storeraw => i.vals.flatMap (place l) ++ place l i.addr
  | _ => i.vals.flatMap (place l)

/-- The places an instruction writes to. -/
def writes (l : Nat → Nat) (x : Nat) (i : Insn) : List Nat :=
  match i.op with
  | .call => [0, 1, 2, 3, 4, 5]
  | .store => i.vals.head?.toList.flatMap (place l)
  | .alloc | .storeraw | .ret | .throw | .ja | .phi => []
  | o => if o.condJmp then [] else [l x]

/-- Starting in block `b` before the instructions `rest`, some path reads the place `q` before it is written to.  The phis of
a block are written when the block is entered and read their operands before. -/
inductive Needed (f : Fn) (l : Nat → Nat) (q : Nat) : Nat → List Nat → Prop
  | read {b s rest} : q ∈ reads l (f.insn s) → Needed f l q b (s :: rest)
  | skip {b s rest} : q ∉ writes l s (f.insn s) → Needed f l q b rest → Needed f l q b (s :: rest)
  | phi {b c x y} : c ∈ f.succs b → x ∈ phisOf f c → (b, Val.insn y) ∈ (f.insn x).phi → q = l y → Needed f l q b []
  | edge {b c} : c ∈ f.succs b → (∀ x ∈ phisOf f c, q ≠ l x) → Needed f l q c (codeOf f c) → Needed f l q b []

/-- Instructions that end a block or are phis. -/
def control (o : Op) : Bool := o = .ja || o.condJmp || o = .ret || o = .throw || o = .phi

/-- The instruction copies the place `q`. -/
def Copies (l : Nat → Nat) (i : Insn) (q : Nat) : Prop := i.op = .assign ∧ i.aluOp ≠ .w32 ∧ ∃ y, i.vals = [.insn y] ∧ l y = q

/-- The control flow from the entry stays in the blocks `R`: jumps lead to successors of their block, and are at its end. -/
structure Flow (f : Fn) (R : List Nat) : Prop where
  entry : f.entry ∈ R
  succs : ∀ a ∈ R, ∀ b ∈ f.succs a, b ∈ R
  ja : ∀ b ∈ R, ∀ x ∈ f.body b, (f.insn x).op = .ja → (f.insn x).bb1 ∈ f.succs b
  cond : ∀ b ∈ R, ∀ x ∈ f.body b, (f.insn x).op.condJmp = true → (f.insn x).bb1 ∈ f.succs b ∧ (f.insn x).bb2 ∈ f.succs b
  last : ∀ b ∈ R, ∀ pre z r, f.body b = pre ++ z :: r → control (f.insn z).op = true → (f.insn z).op ≠ .phi → r = []

/-- Places can be renamed by `c` in the blocks `R`: the machine registers stay, and when a place is written to, no other place that is still
needed then gets the same name (except one that is copied). -/
structure Apart (f : Fn) (R : List Nat) (l c : Nat → Nat) : Prop where
  fixed : ∀ q, q ≤ 10 → c q = q
  insns : ∀ b ∈ R, ∀ pre x rest, f.body b = pre ++ x :: rest → ∀ q, Needed f l q b rest →
    ∀ w ∈ writes l x (f.insn x), w ≠ q → c w = c q → Copies l (f.insn x) q
  phis : ∀ b ∈ R, ∀ q, Needed f l q b (codeOf f b) →
    ∀ xs x ys, phisOf f b = xs ++ x :: ys → l x ≠ q → c (l x) = c q → ∃ y ∈ ys, l y = q

end Verif.Loc
