import Verif.Cg.Model
import Verif.Spec.Loc
import Verif.Spec.Place
import Verif.Live.Props
import Verif.IR.OkCheck
import Verif.Lift.Props
/-!
# Building functions for the examples and witnesses of code generation
-/
namespace Verif.Cg
open Verif Verif.IR Verif.Edit Verif.Loc
open Verif.Norm (VrPos Reg)

/-- A function from the instructions and successors of its blocks 0, 1, 2, ...; the instructions 0..10 stand for the machine
registers. -/
def mkFn (bs : List (List (Nat × Insn) × List Nat)) : Fn :=
  let all := bs.flatMap (·.1)
  let blocks := List.range bs.length
  let succs := fun b => (bs[b]?.map (·.2)).getD []
  { insn := fun x => (all.lookup x).getD { op := .reg }
    users := fun y => all.flatMap (fun o => List.replicate (refs o.2 y) o.1)
    next := 11 + all.length
    parent := fun x => ((List.range bs.length).find? (fun b => ((bs[b]?.map (·.1)).getD []).any (fun o => o.1 == x))).getD 0
    body := fun b => ((bs[b]?.map (·.1)).getD []).map (·.1)
    preds := fun b => blocks.filter (fun a => b ∈ succs a)
    succs := succs
    allBbs := blocks
    entry := 0
    sp := 10
    args := List.range 11 }

theorem mkFn_body {bs : List (List (Nat × Insn) × List Nat)} {b : Nat} (h : b ∉ (mkFn bs).allBbs) : (mkFn bs).body b = [] := by
  have h1 : ¬ b < bs.length := fun hlt => h (List.mem_range.2 hlt)
  show ((bs[b]?.map (·.1)).getD []).map (·.1) = []
  rw [List.getElem?_eq_none (Nat.le_of_not_lt h1)]
  rfl

/-- Every instruction with a result is its own destination, core/ir_cg.c:88-98; calls have lost theirs in `change_call`,
core/ir_cg.c:208. -/
def dstOf (f : Fn) (x : Nat) : Option Nat := if isVoid (f.insn x).op ∨ (f.insn x).op = .call then none else some x

/-- Allocator state at the start of a round: the values 0..10 are the machine registers, those of `fixed` have the register given
there, the other ones are virtual registers. -/
def startS (fixed : List (Nat × Nat)) (vars : List Nat) : RA.St where
  cg v :=
    if v ≤ 10 then { pos := { allocated := true, reg := v }, fin := true, nonvr := true }
    else match fixed.lookup v with
      | some r => { pos := { allocated := true, reg := r }, fin := true }
      | none => {}
  regs := id
  allVar := vars
  seo := []

theorem startS_start (fixed : List (Nat × Nat)) (vars : List Nat) : RA.Start (startS fixed vars) := by
  refine ⟨?_, ?_, ?_⟩
  · intro i hi
    have : i ≤ 10 := by unfold RA.colors at hi; omega
    simp [startS, this, RA.VrPos.inReg]
  · intro v
    simp only [startS]
    split
    · rfl
    · split <;> rfl
  · intro v h
    simp only [startS] at h ⊢
    split
    · rfl
    · split <;> rfl

theorem startS_fin (fixed : List (Nat × Nat)) (vars : List Nat) (v : Nat) :
    ((startS fixed vars).cg v).fin = ((startS fixed vars).cg v).pos.allocated := by
  simp only [startS]
  split
  · rfl
  · split <;> rfl

theorem startS_reg {fixed : List (Nat × Nat)} (h : ∀ o ∈ fixed, o.2 ≤ 10) (vars : List Nat) (v : Nat) :
    ((startS fixed vars).cg v).pos.reg ≤ 10 := by
  simp only [startS]
  split
  · assumption
  · split
    · rename_i r hr
      obtain ⟨_, _, e, _⟩ := List.lookup_eq_some_iff.1 hr
      exact h (v, r) (by rw [e]; simp)
    · exact Nat.zero_le _

/-- One round of register allocation: liveness, conflicts, elimination order, colouring; nothing is spilled. -/
def allocateS (f : Fn) (fixed : List (Nat × Nat)) : Out RA.St := do
  let fin := fun v => (fixed.lookup v).isSome
  let r ← Live.analyse f f.allBbs (dstOf f) (startS fixed (List.range 10 ++ Live.vars f f.allBbs (dstOf f) fin))
  let q ← RA.preSpill r.2
  if q.2 = [] then RA.coloring q.1 else .err

def posOfSt (s : RA.St) (x : Nat) : VrPos :=
  ⟨(s.cg x).pos.allocated, Fin.ofNat 11 (s.cg x).pos.reg, (s.cg x).pos.spilled⟩

def allocate (f : Fn) : Out (Nat → VrPos) := do
  let s ← allocateS f []
  .ok (posOfSt s)

/-- And coalescing. -/
def allocateC (f : Fn) (fixed : List (Nat × Nat)) : Out (Nat → VrPos) := do
  let s ← allocateS f fixed
  let t ← RA.coalescing (copiesOf f f.allBbs) s
  .ok (posOfSt t)

/-- A 64-bit constant. -/
def c64 (n : Nat) : Val := .const .plain (BitVec.ofNat 64 n) .w64 .none

/-- Place `q` holds `q`. -/
def st0 : Loc.St := ⟨fun q => BitVec.ofNat 64 q, fun _ => 0, []⟩

/-- What the function returns within `n` steps, with these positions. -/
def retL (f : Fn) (pos : Nat → VrPos) (n : Nat) : Option (BitVec 64) :=
  match Loc.runFn Lift.exWI f (places pos) n st0 with
  | .done x _ => some x
  | _ => none

/-- What the SSA function returns within `n` steps. -/
def retI (f : Fn) (n : Nat) : Option (BitVec 64) :=
  match IR.runFn Lift.exWI f n (view id st0) with
  | .done x _ => some x
  | _ => none

def regs (r : Reg) : Nat := r

def onOk {α} (x : Out α) (p : α → Bool) : Bool := match x with | .ok a => p a | _ => false

theorem of_onOk {α} {x : Out α} {p : α → Bool} (h : onOk x p = true) : ∃ a, x = .ok a ∧ p a = true := by
  cases x with
  | ok a => exact ⟨a, rfl, h⟩
  | _ => cases h

/-- A test for `Flow`. -/
def flowB (f : Fn) (R : List Nat) : Bool :=
  decide (f.entry ∈ R) && R.all (fun a => (f.succs a).all (fun b => decide (b ∈ R))) &&
  R.all (fun b => (f.body b).all (fun x => decide ((f.insn x).op = .ja → (f.insn x).bb1 ∈ f.succs b) &&
    decide ((f.insn x).op.condJmp = true → (f.insn x).bb1 ∈ f.succs b ∧ (f.insn x).bb2 ∈ f.succs b))) &&
  R.all (fun b => (f.body b).dropLast.all (fun x => decide (Loc.control (f.insn x).op = true → (f.insn x).op = .phi)))

theorem flow_of_check {f : Fn} {R : List Nat} (h : flowB f R = true) : Flow f R := by
  simp only [flowB, Bool.and_eq_true, List.all_eq_true, decide_eq_true_eq] at h
  obtain ⟨⟨⟨h1, h2⟩, h3⟩, h4⟩ := h
  refine ⟨h1, h2, fun b hb x hx => (h3 b hb x hx).1, fun b hb x hx => (h3 b hb x hx).2, ?_⟩
  intro b hb pre z r e hc hp
  cases r with
  | nil => rfl
  | cons y r =>
    exfalso
    refine hp (h4 b hb z ?_ hc)
    rw [e, List.dropLast_append_of_ne_nil (by simp), List.dropLast_cons_of_ne_nil (by simp)]
    simp

end Verif.Cg
