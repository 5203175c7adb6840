import Verif.DivZero.Lemmas
import Verif.Guard.ShapeCheck
import Verif.Edit.Props
/-!
# C28: the division-by-zero pass
-/
namespace Verif.DivZero
open Verif Verif.IR Verif.Edit

/-- What the pass expects of a function: it is in good shape, and the reachable blocks are listed once. -/
structure Input (rs : List Nat) (f : Fn) : Prop where
  shape : Shape f
  nodup : rs.Nodup
  blocks : ∀ b ∈ rs, b ∈ f.allBbs

/-- `d` is a division by the variable `y` in a reachable block, and not the first instruction of the block. -/
def Guarded (rs : List Nat) (f : Fn) (d y : Nat) : Prop :=
  (f.insn d).op = .div ∧ (f.insn d).vals[1]? = some (.insn y) ∧ ∃ b ∈ rs, ∃ l r, f.body b = l ++ d :: r ∧ l ≠ []

/-- No block behind a guarded division has phis. -/
def NoPhisBehind (rs : List Nat) (f : Fn) : Prop :=
  ∀ b ∈ rs, (∃ x ∈ f.body b, (f.insn x).op = .div) → ∀ t ∈ f.succs b, phisOf f t = []

theorem mem_divs {rs : List Nat} {f : Fn} {d : Nat} : d ∈ divs rs f ↔ ∃ b ∈ rs, d ∈ f.body b ∧ (f.insn d).op = .div := by
  simp [divs]

theorem divs_in {rs : List Nat} {f : Fn} (hi : Input rs f) : ∀ d ∈ divs rs f, InBody f d ∧ (f.insn d).op = .div := by
  intro d hd
  obtain ⟨b, hb, h1, h2⟩ := mem_divs.1 hd
  exact ⟨⟨b, hi.blocks b hb, h1⟩, h2⟩

theorem divs_nodup {rs : List Nat} {f : Fn} (hi : Input rs f) : (divs rs f).Nodup := by
  unfold divs
  obtain ⟨hs, hn, hb⟩ := hi
  induction rs with
  | nil => simp
  | cons b rs ih =>
    rw [List.flatMap_cons, List.nodup_append]
    have hn' := List.nodup_cons.1 hn
    refine ⟨(hs.tidy.nodup b (hb b (by simp))).filter _, ih hn'.2 (fun c hc => hb c (List.mem_cons_of_mem _ hc)), ?_⟩
    intro x hx y hy e
    subst e
    obtain ⟨c, hc, hy⟩ := List.mem_flatMap.1 hy
    have h1 := hs.tidy.parent b (hb b (by simp)) x (List.mem_filter.1 hx).1
    have h2 := hs.tidy.parent c (hb c (List.mem_cons_of_mem _ hc)) x (List.mem_filter.1 hy).1
    exact hn'.1 (by rw [← h1, h2]; exact hc)

theorem guarded_iff {rs : List Nat} {f : Fn} (hi : Input rs f) {d y : Nat} : Guarded rs f d y ↔ d ∈ divs rs f ∧ Checks f d y := by
  constructor
  · rintro ⟨h1, h2, b, hb, l, r, hl, hne⟩
    have hm : d ∈ f.body b := by rw [hl]; simp
    refine ⟨mem_divs.2 ⟨b, hb, hm, h1⟩, h2, ?_⟩
    rw [hi.shape.tidy.parent b (hi.blocks b hb) d hm, hl]
    have hnd := hi.shape.tidy.nodup b (hi.blocks b hb)
    rw [hl] at hnd
    obtain ⟨a, l, rfl⟩ := List.exists_cons_of_ne_nil hne
    simp only [List.cons_append, List.head?_cons]
    intro e
    cases e
    exact (List.nodup_append.1 hnd).2.2 d (by simp) d (by simp) rfl
  · rintro ⟨h1, h2, h3⟩
    obtain ⟨b, hb, hm, hop⟩ := mem_divs.1 h1
    rw [hi.shape.tidy.parent b (hi.blocks b hb) d hm] at h3
    obtain ⟨l, r, hl⟩ := List.append_of_mem hm
    refine ⟨hop, h2, b, hb, l, r, hl, ?_⟩
    rintro rfl
    rw [hl] at h3
    simp at h3

theorem noPhis_of {rs : List Nat} {f : Fn} (hi : Input rs f) (h : NoPhisBehind rs f) : ∀ d ∈ divs rs f, NoPhis f d := by
  intro d hd
  obtain ⟨b, hb, hm, hop⟩ := mem_divs.1 hd
  unfold NoPhis
  rw [hi.shape.tidy.parent b (hi.blocks b hb) d hm]
  exact h b hb ⟨d, hm, hop⟩

/-- C28 (partial): no execution of the result gets to a guarded division with a divisor of zero.  Missing: divisions that
are first in their block, moduli, constant divisors, and 32-bit divisors whose lower half only is zero. -/
theorem C28_no_zero_partial {rs : List Nat} {f g : Fn} (hi : Input rs f) (h : divByZero rs f = .ok g) (W : World) (σ τ : St) {d y : Nat}
    (hd : Guarded rs f d y) (hr : Reaches W g σ d τ) : τ.env y ≠ 0 :=
  have hg := (guarded_iff hi).1 hd
  (checkAll_result (W := W) _ hi.shape (divs_nodup hi) (divs_in hi) h).safe σ τ d hg.1 y hg.2 hr

/-- C28 (partial): an execution that would get to a guarded division with a divisor of zero throws at the first such
division, with the state it has there. -/
theorem C28_goes_to_error_partial {rs : List Nat} {f g : Fn} (hi : Input rs f) (hp : NoPhisBehind rs f) (h : divByZero rs f = .ok g)
    (W : World) (σ τ : St) {d y : Nat} (hd : Guarded rs f d y) (hr : Reaches W f σ d τ) (hz : τ.env y = 0) :
    ∃ d' y' τ', Guarded rs f d' y' ∧ Reaches W f σ d' τ' ∧ τ'.env y' = 0 ∧ ∃ m, runFn W g m σ = .thrown τ' := by
  have R := checkAll_result (W := W) _ hi.shape (divs_nodup hi) (divs_in hi) h
  have hg := (guarded_iff hi).1 hd
  rcases R.reach (noPhis_of hi hp) σ τ d (hi.shape.tidy.lt d (.inr (.inr (divs_in hi d hg.1).1))) hr with h1 | ⟨d', h1, y', τ', h2, h3, h4, h5⟩
  · exact absurd hz (R.safe σ τ d hg.1 y hg.2 h1)
  · exact ⟨d', y', τ', (guarded_iff hi).2 ⟨h1, h2⟩, h3, h4, h5⟩

/-- The pass changes nothing else: an execution without a zero divisor at a guarded division has the same results, and
results of the new function are results of the old one or throws at a zero divisor. -/
theorem C28_otherwise_same {rs : List Nat} {f g : Fn} (hi : Input rs f) (hp : NoPhisBehind rs f) (h : divByZero rs f = .ok g)
    (W : World) (σ : St) :
    ((∀ d y τ, Guarded rs f d y → Reaches W f σ d τ → τ.env y ≠ 0) → ∀ k, ∃ m, k ≤ m ∧ SameRes (runFn W f k σ) (runFn W g m σ)) ∧
    (∀ m x τ, runFn W g m σ = .done x τ → ∃ k, runFn W f k σ = .done x τ) ∧
    (∀ m τ, runFn W g m σ = .thrown τ → (∃ k, runFn W f k σ = .thrown τ) ∨
      ∃ d y, Guarded rs f d y ∧ Reaches W f σ d τ ∧ τ.env y = 0) ∧
    (∀ m, runFn W g m σ = .stuck → ∃ k, runFn W f k σ = .stuck) := by
  have R := checkAll_result (W := W) _ hi.shape (divs_nodup hi) (divs_in hi) h
  refine ⟨?_, R.done σ, ?_, fun m hm => R.stuck σ m hm (noPhis_of hi hp)⟩
  · intro hno k
    rcases R.fwd (noPhis_of hi hp) σ k with h1 | ⟨d', h1, y', τ', h2, h3, h4, _⟩
    · exact h1
    · exact absurd h4 (hno d' y' τ' ((guarded_iff hi).2 ⟨h1, h2⟩) h3)
  · intro m τ hm
    rcases R.thrown σ m τ hm with h1 | ⟨d, h1, y, h2, h3, h4⟩
    · exact .inl h1
    · exact .inr ⟨d, y, (guarded_iff hi).2 ⟨h1, h2⟩, h3, h4⟩

/-! ## Examples and violations -/

/-- `x = r2; d = r1 / x; e = d / x; ret e` -/
def divFn (o : Op) (t : AluTy) : Fn :=
  let f := createBb emptyFn (mkAssign (.insn 2)) 0 .back
  let f := createBb f (mkBin o t (.insn 1) (.insn 6)) 0 .back
  let f := createBb f (mkBin o t (.insn 7) (.insn 6)) 0 .back
  createBb f (mkRet (.insn 8)) 0 .back

def argSt (a b : BitVec 64) : St := { env := fun x => if x = 1 then a else if x = 2 then b else 0, var := fun _ => 0, mem := fun _ => 0, trace := [] }

def doneWith (f : Fn) (k : Nat) (a b : BitVec 64) : Option (BitVec 64) :=
  match runFn Lift.exWI f k (argSt a b) with
  | .done x _ => some x
  | _ => none

def throws (f : Fn) (k : Nat) (a b : BitVec 64) : Bool :=
  match runFn Lift.exWI f k (argSt a b) with
  | .thrown _ => true
  | _ => false

def sticks (f : Fn) (k : Nat) (a b : BitVec 64) : Bool :=
  match runFn Lift.exWI f k (argSt a b) with
  | .stuck => true
  | _ => false

/-- After `k` steps the execution is in front of `d`, and the `w` low bits of `y` are zero. -/
def zeroAt (f : Fn) (k : Nat) (a b : BitVec 64) (d y w : Nat) : Bool :=
  match runFn Lift.exWI f k (argSt a b) with
  | .running _ (x :: _) τ => x == d && (τ.env y).toNat % 2 ^ w == 0
  | _ => false

example : Input [0] (divFn .div .w64) ∧ NoPhisBehind [0] (divFn .div .w64) ∧ Guarded [0] (divFn .div .w64) 7 6 ∧ Guarded [0] (divFn .div .w64) 8 6 := by
  refine ⟨⟨shape_of_check (by decide +kernel), by decide, by decide +kernel⟩, ?_, ⟨by decide +kernel, by decide +kernel, 0, by decide, [6], [8, 9], by decide +kernel, by decide⟩,
    ⟨by decide +kernel, by decide +kernel, 0, by decide, [6, 7], [9], by decide +kernel, by decide⟩⟩
  intro b hb _ t ht
  rw [List.mem_singleton.1 hb] at ht
  have : (divFn .div .w64).succs 0 = [] := by decide +kernel
  rw [this] at ht
  cases ht

example : onOk (divByZero [0] (divFn .div .w64)) (fun g => doneWith g 20 42 2 = some 10 ∧ throws g 20 42 0 ∧
    g.body 0 = [6, 11] ∧ g.succs 0 = [1, 2] ∧ g.body 1 = [7, 13] ∧ g.body 3 = [8, 9] ∧ g.body 2 = [10] ∧ g.body 4 = [12]) = true := by
  decide +kernel

/-- The old function gets to the division with a zero divisor, the new one with a divisor of two. -/
example : zeroAt (divFn .div .w64) 1 42 0 7 6 64 = true ∧ onOk (divByZero [0] (divFn .div .w64)) (fun g =>
    (match runFn Lift.exWI g 2 (argSt 42 2) with | .running _ (x :: _) τ => x == 7 && τ.env 6 == 2 | _ => false)) = true := by
  decide +kernel

/-- C28 is violated for a division that is the first instruction of its block. -/
def firstFn : Fn := createBb (createBb emptyFn (mkBin .div .w64 (.insn 1) (.insn 2)) 0 .back) (mkRet (.insn 6)) 0 .back

theorem C28_violated_first : Input [0] firstFn ∧ onOk (divByZero [0] firstFn) (fun g => zeroAt g 0 42 0 6 2 64) = true := by
  exact ⟨⟨shape_of_check (by decide +kernel), by decide, by decide +kernel⟩, by decide +kernel⟩

/-- C28 is violated for moduli: they are not guarded. -/
theorem C28_violated_mod : Input [0] (divFn .mod .w64) ∧ onOk (divByZero [0] (divFn .mod .w64)) (fun g => zeroAt g 1 42 0 7 6 64) = true := by
  exact ⟨⟨shape_of_check (by decide +kernel), by decide, by decide +kernel⟩, by decide +kernel⟩

/-- C28 is violated for 32-bit divisions: the check compares all 64 bits. -/
theorem C28_violated_width : Input [0] (divFn .div .w32) ∧
    onOk (divByZero [0] (divFn .div .w32)) (fun g => zeroAt g 2 42 0x100000000 7 6 32 ∧ zeroAt g 2 42 0 7 6 32 = false) = true := by
  exact ⟨⟨shape_of_check (by decide +kernel), by decide, by decide +kernel⟩, by decide +kernel⟩

/-- `x = r2; d = r1 / 0; ret d` -/
def constFn : Fn :=
  let f := createBb emptyFn (mkAssign (.insn 2)) 0 .back
  let f := createBb f (mkBin .div .w64 (.insn 1) (const32 0)) 0 .back
  createBb f (mkRet (.insn 7)) 0 .back

/-- C28 is violated for constant divisors: `d = r1 / 0` stays as it is. -/
theorem C28_violated_const : Input [0] constFn ∧ onOk (divByZero [0] constFn) (fun g => g.body 0 = [6, 7, 8] ∧ (g.insn 7).op = .div ∧
    (g.insn 7).vals[1]? = some (const32 0)) = true := by
  exact ⟨⟨shape_of_check (by decide +kernel), by decide, by decide +kernel⟩, by decide +kernel⟩

/-- `b0: x = r2; d = r1 / x; ja b1`, `b1: p = phi [d from b0]; ret p` -/
def phiDivFn : Fn :=
  let f := createBb emptyFn (mkAssign (.insn 2)) 0 .back
  let f := createBb f (mkBin .div .w64 (.insn 1) (.insn 6)) 0 .back
  let f := newBb f
  let f := createBb f (mkJa 1) 0 .back
  let f := connect f 0 1
  let f := createBb f mkPhi 1 .back
  let f := phiAddOperand f 9 0 (.insn 7)
  createBb f (mkRet (.insn 9)) 1 .back

/-- C28 is violated if there are phis behind the division: the phi of block 1 still names block 0, but control now comes
from the new block, and the execution has no meaning although the divisor is not zero. -/
theorem C28_violated_phi : Input [0, 1] phiDivFn ∧ doneWith phiDivFn 9 42 2 = some 21 ∧
    onOk (divByZero [0, 1] phiDivFn) (fun g => g.preds 1 = [2] ∧ (g.insn 9).phi = [(0, .insn 7)] ∧
      sticks g 9 42 2) = true := by
  exact ⟨⟨shape_of_check (by decide +kernel), by decide, by decide +kernel⟩, by decide +kernel, by decide +kernel⟩

end Verif.DivZero
