import Verif.Spec.Agree
import Verif.Spec.Uses
/-!
# Specification: transformations that preserve behaviour; walks and dominance
-/
namespace Verif.IR
open Verif

/-- Observable part of a state: memory and the calls made. -/
def SameObs (σ σ' : St) : Prop := σ'.mem = σ.mem ∧ σ'.trace = σ.trace

/-- Every execution of `f` from `σ` that has a meaning is an execution of `g`, and the other way round: the same
returned value, the same throws, the same memory and calls at the end and on the way. -/
structure Preserves (W : World) (f g : Fn) (σ : St) : Prop where
  forward : ∀ n, runFn W f n σ = .stuck ∨ ∃ m, RelRes SameObs (runFn W f n σ) (runFn W g m σ)
  backward : ∀ m, ∃ n, runFn W f n σ = .stuck ∨ (RelRes SameObs (runFn W f n σ) (runFn W g m σ) ∧ m ≤ n)

/-- At every step of `f` there is one of `g` at which all values that `g` has are those of `f`. -/
def KeepsValues (W : World) (f g : Fn) (σ : St) : Prop :=
  ∀ n, runFn W f n σ = .stuck ∨ ∃ m, RelRes (Agree (Live g)) (runFn W f n σ) (runFn W g m σ)

/-- Control can go from block `a` to block `b`. -/
inductive Edge (f : Fn) (a b : Nat) : Prop
  | ja (x : Nat) : x ∈ f.body a → (f.insn x).op = .ja → (f.insn x).bb1 = b → Edge f a b
  | cond (x : Nat) : x ∈ f.body a → (f.insn x).op.condJmp = true → (f.insn x).bb1 = b ∨ (f.insn x).bb2 = b → Edge f a b
  | fall : f.succs a = [b] → Edge f a b

/-- Block sequences from the entry, the last block first. -/
inductive Walk (f : Fn) : List Nat → Prop
  | entry : Walk f [f.entry]
  | step (a b : Nat) (h : List Nat) : Walk f (a :: h) → Edge f a b → Walk f (b :: a :: h)

/-- Every way from the entry to `b` goes through `a`. -/
def Dom (f : Fn) (a b : Nat) : Prop := ∀ h, Walk f (b :: h) → a ∈ b :: h

/-- Phis are at the start of their block only. -/
def PhisFirst (f : Fn) : Prop := ∀ b, ∀ x ∈ codeOf f b, (f.insn x).op ≠ .phi

/-- A user is listed at least once and at most as often as it refers to the value (the lifter lists it once, the
editing functions once for each reference). -/
def UsersSound (f : Fn) : Prop :=
  ∀ y, Live f y →
    (∀ x, Live f x → (f.users y).count x ≤ refs (f.insn x) y ∧ (0 < refs (f.insn x) y → x ∈ f.users y)) ∧
    ∀ x ∈ f.users y, Live f x

end Verif.IR
