import Verif.Fit.Fits
import Verif.Compile.Check
/-!
# Tests for the hypotheses of C73, for examples
-/
namespace Verif.Fit
open Verif Verif.IR Verif.Edit Verif.Cg
open Verif.Loc (Smooth copiesAt)

/-- A test for `OneArg`. -/
def oneB (f : Fn) (a : Nat) : Bool := f.args.all fun b => decide (b = a) || (f.users b).isEmpty

theorem one_of_check {f : Fn} {a : Nat} (h : oneB f a = true) : OneArg f := by
  simp only [oneB, List.all_eq_true, Bool.or_eq_true, decide_eq_true_eq, List.isEmpty_iff] at h
  exact ⟨a, fun b hb hne => (h b hb).resolve_left hne⟩

/-- A test for `Smooth`; `E` are the values needed at the start of the blocks. -/
def smoothB (f : Fn) (R : List Nat) (dst : Nat → Option Nat) (E : Nat → List Nat) : Bool :=
  R.all (fun b => (f.succs b).all (fun c => decide (c ∈ R))) &&
  R.all (fun b => (need f dst E b (f.body b)).all (fun v => decide (v ∈ E b))) &&
  R.all (fun p => (copiesAt f R p).all fun o => (copiesAt f R p).all fun o' => R.all fun c => !decide (o.1 ∈ phisOf f c) || decide (o'.1 ∈ phisOf f c)) &&
  R.all (fun p => (copiesAt f R p).all fun o => (f.succs p).all fun c => decide (o.1 ∈ phisOf f c) || !decide (o.1 ∈ need f dst E c (f.body c))) &&
  R.all (fun p => (f.body p).all fun z => !Loc.control (f.insn z).op || decide ((f.insn z).op = .phi) || (copiesAt f R p).all fun o => decide (refs (f.insn z) o.1 = 0)) &&
  R.all (fun p => decide ((copiesAt f R p).Pairwise (fun o o' => o'.2 ≠ .insn o.1)))

theorem smooth_of_check {f : Fn} {R : List Nat} {dst : Nat → Option Nat} {E : Nat → List Nat} (h : smoothB f R dst E = true) : Smooth f R dst := by
  simp only [smoothB, Bool.and_eq_true, List.all_eq_true, decide_eq_true_eq, Bool.or_eq_true, Bool.not_eq_true', decide_eq_false_iff_not] at h
  obtain ⟨⟨⟨⟨⟨h6, h7⟩, h1⟩, h2⟩, h3⟩, h4⟩ := h
  refine ⟨fun p hp o ho o' ho' c hc hx => (h1 p hp o ho o' ho' c hc).resolve_left (fun k => k hx), fun p hp o ho c hc hx hn => ?_, fun p hp z hz hc hne o ho => ?_, fun p hp A x v B e o ho => ?_⟩
  · exact (h2 p hp o ho c hc).resolve_left hx (need_of h6 h7 hn (h6 p hp c hc))
  · rcases h3 p hp z hz with (k | k) | k
    · rw [hc] at k; cases k
    · exact absurd k hne
    · exact k o ho
  · have := h4 p hp
    rw [e] at this
    exact (List.pairwise_append.1 this).2.2 o ho _ (List.mem_cons_self ..)

/-- The values needed at the start of the blocks, after `n` rounds. -/
def rounds (f : Fn) (R : List Nat) (dst : Nat → Option Nat) : Nat → List (Nat × List Nat)
  | 0 => []
  | n + 1 => let E := rounds f R dst n
    R.map fun b => (b, (need f dst (fun c => (E.lookup c).getD []) b (f.body b)).eraseDups)

/-- `smoothB` for what has been computed in `n` rounds. -/
def smoothIn (f : Fn) (R : List Nat) (dst : Nat → Option Nat) (n : Nat) : Bool :=
  let E := rounds f R dst n
  smoothB f R dst (fun c => (E.lookup c).getD [])

end Verif.Fit
