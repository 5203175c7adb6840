import Verif.Spec.Shape
/-!
# Specification: what the pass for heap ecalls changes
-/
namespace Verif.Ecall
open Verif Verif.IR

/-- The value is calculated from loaded values and constants by arithmetic. -/
inductive Scalar (f : Fn) : Val → Prop
  | const (k c w b) : Scalar f (.const k c w b)
  | undef : Scalar f .undef
  | load {x : Nat} : (f.insn x).op = .loadraw → Scalar f (.insn x)
  | arith {x : Nat} {v w : Val} : (f.insn x).op.binAlu = true → (f.insn x).vals = [v, w] → Scalar f v → Scalar f w → Scalar f (.insn x)

/-- A load or store whose base is such a value (and not a constant). -/
def Heap (f : Fn) (x : Nat) : Prop :=
  ((f.insn x).op = .loadraw ∨ (f.insn x).op = .storeraw) ∧ ∃ y, (f.insn x).addr = .insn y ∧ Scalar f (.insn y)

/-- The comparison of `c` with 0 that leads to `n` if it is not 0 and to `e` if it is. -/
def nullCheck (c n e : Nat) : Insn := { op := .jeq, vals := [.insn c, .const .plain 0 .w32 .none], bb1 := n, bb2 := e, aluOp := .w64 }

/-- The instructions `l` are in the block `b`, or in this block and those after the null checks in it, each of which starts a new block that can be
reached from there only; if a check fails, a block that throws is next.  `S` are the successors at the end. -/
inductive Chain (g : Fn) (S : List Nat) : Nat → List Nat → Prop
  | last {b : Nat} {l : List Nat} : b ∈ g.allBbs → g.body b = l → g.succs b = S → Chain g S b l
  | cut {b c j n e t : Nat} {l r : List Nat} : b ∈ g.allBbs → g.body b = l ++ [j] → g.insn j = nullCheck c n e → g.succs b = [n, e] → g.preds n = [b] →
      n ≠ e → g.body e = [t] → (g.insn t).op = .throw → g.entry ≠ n → Chain g S n r → Chain g S b (l ++ j :: r)

/-- The address of the load `i` with its offset is the value `v`, calculated by the instructions `ns`. -/
def Key (g : Fn) (i : Insn) (ns : List Nat) (v : Val) : Prop :=
  i.addrOff = 0 ∧ ns = [] ∧ v = i.addr ∨
  i.addrOff ≠ 0 ∧ ∃ a, ns = [a] ∧ v = .insn a ∧
    g.insn a = { op := .add, vals := [i.addr, .const .plain ((i.addrOff.signExtend 32).signExtend 64) .w32 .none], aluOp := .w64 }

/-- The load `x` of `f` reads what a lookup of its address in the map `m` returns; the instructions `ns` in front of it put the address in an array of 8
bytes, call the lookup (helper 1) with the map and the array, and check that the result `c` is not null. -/
def LoadDone (f : Fn) (m : Nat) (g : Fn) (x : Nat) (ns : List Nat) (c : Nat) : Prop :=
  ∃ ks v a s p j n e, ns = ks ++ [a, s, p, c, j] ∧ Key g (f.insn x) ks v ∧
    g.insn a = { op := .allocarray, vrType := .t64, aux := 1 } ∧
    g.insn s = { op := .storeraw, vrType := .t64, addr := .insn a, addrOff := 0, vals := [v] } ∧
    g.insn p = { op := .getelemptr, vals := [.const .plain 0 .w32 .none, .insn a] } ∧
    g.insn c = { op := .call, aux := 1, vals := [.insn m, .insn p] } ∧
    g.insn j = nullCheck c n e ∧
    g.insn x = { f.insn x with addr := .insn c, addrOff := 0 }

/-- The store `x` of `f` goes to the sum of the map `m` and its address. -/
def StoreDone (f : Fn) (m : Nat) (g : Fn) (x : Nat) (ns : List Nat) : Prop :=
  ∃ p, ns = [p] ∧ g.insn p = { op := .add, vals := [.insn m, (f.insn x).addr], aluOp := .w64 } ∧ g.insn x = { f.insn x with addr := .insn p }

/-- `g` is `f` without the ecall `e`, and with heap accesses in the blocks `R` redirected to the map `m`; `pre x` are the new instructions in front of
`x`. -/
structure Redirected (f : Fn) (R : List Nat) (e m : Nat) (g : Fn) (pre : Nat → List Nat) : Prop where
  shape : Shape g
  entry : g.entry = f.entry
  sp : g.sp = f.sp
  args : g.args = f.args
  fresh : ∀ x, ∀ n ∈ pre x, f.next ≤ n
  blocks : ∀ b ∈ f.allBbs, Chain g (f.succs b) b (((f.body b).filter (· != e)).flatMap fun x => pre x ++ [x])
  load : ∀ b ∈ R, ∀ x ∈ f.body b, Heap f x → (f.insn x).op = .loadraw → ∃ c, LoadDone f m g x (pre x) c
  store : ∀ b ∈ R, ∀ x ∈ f.body b, Heap f x → (f.insn x).op = .storeraw → StoreDone f m g x (pre x)
  other : ∀ x, Live f x → ¬ (Heap f x ∧ ∃ b ∈ R, x ∈ f.body b) → pre x = [] ∧ g.insn x = f.insn x

/-- The last call before the state `τ` was a lookup (helper 1) in the map `m`, of a key in memory that is the address of the load `x` of `f`, and the
result, which is not null, is in `c`. -/
def LookedUp (W : World) (f : Fn) (m c x : Nat) (τ : St) : Prop :=
  ∃ (A P : BitVec 64) (μ : Bpf.Mem) (tr : List Bpf.Event), eval τ (f.insn x).addr = some A ∧ Bpf.load 8 μ P = A + (f.insn x).addrOff.signExtend 64 ∧
    τ.trace = tr ++ [⟨1, [τ.env m, P]⟩] ∧ τ.env c = (W.bpf.call tr 1 [τ.env m, P] μ).ret ∧ τ.mem = (W.bpf.call tr 1 [τ.env m, P] μ).mem ∧ τ.env c ≠ 0

end Verif.Ecall
