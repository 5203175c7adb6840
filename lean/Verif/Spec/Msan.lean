import Verif.Spec.Ir
import Verif.Spec.Uses
import Verif.Spec.Loc
/-!
# Specification: what the stack sanitizer adds, and what its shadow memory holds
-/
namespace Verif.Msan
open Verif Verif.IR

/-- The value is the stack pointer or calculated from it by arithmetic. -/
inductive FromSp (f : Fn) : Nat → Prop
  | sp : FromSp f f.sp
  | arith {x y : Nat} {v w : Val} : (f.insn x).op.binAlu = true → (f.insn x).vals = [v, w] → .insn y ∈ [v, w] → FromSp f y → FromSp f x

/-- A load or store at an address calculated from the stack pointer. -/
def Tracked (f : Fn) (x : Nat) : Prop :=
  ((f.insn x).op = .loadraw ∨ (f.insn x).op = .storeraw) ∧ ∃ y, (f.insn x).addr = .insn y ∧ FromSp f y

/-- A store of 0 of the width of `i`, 256 bytes above the address of `i`. -/
def clears (i : Insn) : Insn :=
  { op := .storeraw, vals := [.const .plain 0 .w32 .none], vrType := i.vrType, addr := i.addr, addrOff := i.addrOff + 256, addrKind := i.addrKind }

/-- A load of the width of `i`, 256 bytes above the address of `i`. -/
def reads (i : Insn) : Insn :=
  { op := .loadraw, vrType := i.vrType, addr := i.addr, addrOff := i.addrOff + 256, addrKind := i.addrKind }

/-- A store of 64 ones at `a` + 8 `i`. -/
def ones (a i : Nat) : Insn :=
  { op := .storeraw, vals := [.const .plain (BitVec.allOnes 64) .w64 .none], vrType := .t64, addr := .insn a, addrOff := BitVec.ofNat 16 (8 * i) }

/-- `g` is `f` with shadow memory, the array `arr` of 256 bytes: at the start of the function it is filled with ones by the instructions `ini`; in the
blocks `R` a tracked store is followed by a store of 0 of the same width at its address + 256, and a tracked load by a load there; everything else is
the same. -/
structure Sanitized (f : Fn) (R : List Nat) (g : Fn) (arr : Nat) (ini : List Nat) (after : Nat → List Nat) : Prop where
  entry : g.entry = f.entry
  succs : g.succs = f.succs
  preds : g.preds = f.preds
  allBbs : g.allBbs = f.allBbs
  sp : g.sp = f.sp
  args : g.args = f.args
  old : ∀ x, Live f x → g.insn x = f.insn x
  fresh : f.next ≤ arr ∧ (∀ n ∈ ini, f.next ≤ n) ∧ ∀ x, ∀ n ∈ after x, f.next ≤ n
  array : g.insn arr = { op := .allocarray, vrType := .t64, aux := 32 }
  init : ini.map g.insn = ((List.range 32).map (ones arr)).reverse
  body : ∀ b ∈ f.allBbs, g.body b = phisOf f b ++ ((if b = f.entry then arr :: ini else []) ++ (codeOf f b).flatMap (fun x => x :: after x))
  store : ∀ b ∈ R, ∀ x ∈ f.body b, Tracked f x → (f.insn x).op = .storeraw → ∃ n, after x = [n] ∧ g.insn n = clears (f.insn x)
  load : ∀ b ∈ R, ∀ x ∈ f.body b, Tracked f x → (f.insn x).op = .loadraw → ∃ n, after x = [n] ∧ g.insn n = reads (f.insn x)
  other : ∀ b ∈ f.allBbs, ∀ x ∈ f.body b, ¬ (b ∈ R ∧ Tracked f x) → after x = []

/-! ## Executions -/

/-- The load or store `x` in the state `τ` touches the byte `a`. -/
def Hits (f : Fn) (τ : St) (x : Nat) (a : BitVec 64) : Prop :=
  ∃ v n i, eval τ (f.insn x).addr = some v ∧ Flat.bytes (f.insn x).vrType = some n ∧ i < n ∧
    a = v + (f.insn x).addrOff.signExtend 64 + BitVec.ofNat 64 i

/-- The 256 bytes of shadow memory start at `p`. -/
def Shadow (p a : BitVec 64) : Prop := (a - p).toNat < 256

/-- The 256 bytes below `p`, whose shadow it is. -/
def Below (p a : BitVec 64) : Prop := (a + 256 - p).toNat < 256

/-- The execution gets to the instruction `x` with the state `τ` in `k` steps. -/
def Gets (W : World) (f : Fn) (σ : St) (k x : Nat) (τ : St) : Prop := ∃ b r, runFn W f k σ = .running b (x :: r) τ

/-- In the execution from `σ` the tracked loads and stores stay in the 256 bytes below `p`, and the others do not touch the 256 bytes from `p` on. -/
structure Sane (W : World) (f : Fn) (σ : St) (p : BitVec 64) : Prop where
  tracked : ∀ k x τ, Gets W f σ k x τ → Tracked f x → ∀ a, Hits f τ x a → Below p a
  other : ∀ k x τ, Gets W f σ k x τ → (f.insn x).op = .loadraw ∨ (f.insn x).op = .storeraw → ¬ Tracked f x → ∀ a, Hits f τ x a → ¬ Shadow p a

/-- Helpers neither read nor write the shadow memory. -/
def Blind (W : World) (p : BitVec 64) : Prop :=
  ∀ tr fid as m m', (∀ a, ¬ Shadow p a → m' a = m a) →
    (W.bpf.call tr fid as m').ret = (W.bpf.call tr fid as m).ret ∧
    (∀ a, ¬ Shadow p a → (W.bpf.call tr fid as m').mem a = (W.bpf.call tr fid as m).mem a) ∧
    ∀ a, Shadow p a → (W.bpf.call tr fid as m').mem a = m' a

/-- A tracked store has written to the byte `a` in the first `n` steps. -/
def Written (W : World) (f : Fn) (σ : St) (n : Nat) (a : BitVec 64) : Prop :=
  ∃ k x τ, k < n ∧ Gets W f σ k x τ ∧ Tracked f x ∧ (f.insn x).op = .storeraw ∧ Hits f τ x a

/-- The states are those of the original and of the sanitized function after `n` steps of the original: same calls, same memory, and the shadow of a
byte is 0 if the byte has been written to, all ones if not. -/
structure Marks (W : World) (f : Fn) (σ : St) (p : BitVec 64) (n : Nat) (τ τ' : St) : Prop where
  trace : τ'.trace = τ.trace
  mem : ∀ a, ¬ Shadow p a → τ'.mem a = τ.mem a
  written : ∀ a, Below p a → Written W f σ n a → τ'.mem (a + 256) = 0
  virgin : ∀ a, Below p a → ¬ Written W f σ n a → τ'.mem (a + 256) = 0xFF

/-- The outcomes of the original (after `n` steps) and of the sanitized function: same result, same calls and memory, marks in the shadow memory. -/
inductive Follows (W : World) (f : Fn) (σ : St) (p : BitVec 64) (n : Nat) : Res → Res → Prop
  | done (x : BitVec 64) (τ τ' : St) : Marks W f σ p n τ τ' → Follows W f σ p n (.done x τ) (.done x τ')
  | thrown (τ τ' : St) : Marks W f σ p n τ τ' → Follows W f σ p n (.thrown τ) (.thrown τ')
  | running (b : Nat) (r s : List Nat) (τ τ' : St) : Marks W f σ p n τ τ' → Follows W f σ p n (.running b r τ) (.running b s τ')

end Verif.Msan
