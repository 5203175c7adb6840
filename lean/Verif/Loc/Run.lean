import Verif.Loc.Exec
import Verif.Spec.Paths
import Verif.IR.Steps
/-!
# Lemmas: phis and steps of functions with places
-/
namespace Verif.Loc
open Verif Verif.IR Verif.Edit

theorem phiAssign_old {f : Fn} {l : Nat → Nat} {p : Nat} {τ : St} : ∀ {xs : List Nat} {e e' : Nat → BitVec 64},
    phiAssign f l p τ xs e = some e' → ∀ q, (∀ x ∈ xs, l x ≠ q) → e' q = e q
  | [], e, e', h, q, _ => by cases h; rfl
  | x :: xs, e, e', h, q, hq => by
    simp only [phiAssign, Option.bind_eq_bind, Option.bind_eq_some_iff] at h
    obtain ⟨v, _, h⟩ := h
    rw [phiAssign_old h q (fun y hy => hq y (List.mem_cons_of_mem _ hy))]
    exact if_neg (fun e => hq x List.mem_cons_self e.symm)

theorem phiAssign_new {f : Fn} {l : Nat → Nat} {p : Nat} {τ : St} : ∀ {xs1 : List Nat} {x : Nat} {xs2 : List Nat} {e e' : Nat → BitVec 64},
    phiAssign f l p τ (xs1 ++ x :: xs2) e = some e' → (∀ y ∈ xs2, l y ≠ l x) →
    phiVal (f.insn x) p (view l τ) = some (e' (l x))
  | [], x, xs2, e, e', h, hx => by
    simp only [List.nil_append, phiAssign, Option.bind_eq_bind, Option.bind_eq_some_iff] at h
    obtain ⟨v, h1, h⟩ := h
    rw [phiAssign_old h (l x) hx]
    simpa using h1
  | y :: xs1, x, xs2, e, e', h, hx => by
    simp only [List.cons_append, phiAssign, Option.bind_eq_bind, Option.bind_eq_some_iff] at h
    obtain ⟨v, _, h⟩ := h
    exact phiAssign_new h hx

theorem phiAssign_isSome {f : Fn} {l : Nat → Nat} {p : Nat} {τ : St} : ∀ {xs : List Nat} {e : Nat → BitVec 64},
    (phiAssign f l p τ xs e).isSome = true ↔ ∀ x ∈ xs, (phiVal (f.insn x) p (view l τ)).isSome = true
  | [], e => by simp [phiAssign]
  | x :: xs, e => by
    simp only [phiAssign, Option.bind_eq_bind, List.mem_cons, forall_eq_or_imp]
    cases phiVal (f.insn x) p (view l τ) with
    | none => simp
    | some v => simp only [Option.bind_some, Option.isSome_some, true_and]; exact phiAssign_isSome

/-- The last element of a list with some property. -/
theorem last_split {α : Type} (P : α → Prop) : ∀ (xs : List α), (∃ x ∈ xs, P x) → ∃ xs1 x xs2, xs = xs1 ++ x :: xs2 ∧ P x ∧ ∀ y ∈ xs2, ¬ P y
  | [], h => by obtain ⟨x, h, _⟩ := h; cases h
  | a :: xs, h => by
    by_cases h' : ∃ x ∈ xs, P x
    · obtain ⟨xs1, x, xs2, e, h1, h2⟩ := last_split P xs h'
      exact ⟨a :: xs1, x, xs2, by rw [e]; rfl, h1, h2⟩
    · obtain ⟨x, hx, hp⟩ := h
      rcases List.mem_cons.1 hx with rfl | hx
      · exact ⟨[], x, xs, rfl, hp, fun y hy hy' => h' ⟨y, hy, hy'⟩⟩
      · exact absurd ⟨x, hx, hp⟩ h'

theorem of_takeWhile {p : Nat → Bool} : ∀ {l : List Nat} {x : Nat}, x ∈ l.takeWhile p → p x = true
  | a :: l, x, h => by
    rw [List.takeWhile_cons] at h
    split at h
    · rename_i ha
      rcases List.mem_cons.1 h with rfl | h
      · exact ha
      · exact of_takeWhile h
    · cases h

theorem phisOf_phi {f : Fn} {b x : Nat} (h : x ∈ phisOf f b) : (f.insn x).op = .phi := by
  have := of_takeWhile h
  simpa using this

theorem phisOf_append (f : Fn) (b : Nat) : phisOf f b ++ codeOf f b = f.body b := List.takeWhile_append_dropWhile

/-- Operands of a phi are read from the block they are labelled with. -/
theorem find_mem {i : Insn} {p : Nat} {o : Nat × Val} (h : i.phi.find? (fun o => o.1 == p) = some o) : (p, o.2) ∈ i.phi := by
  have h1 := List.mem_of_find?_eq_some h
  have h2 := List.find?_some h
  have : o.1 = p := by simpa using h2
  rw [← this]
  exact h1

theorem step_ja {W : World} {f : Fn} {l : Nat → Nat} {b x : Nat} {r : List Nat} {τ : St} (h : (f.insn x).op = .ja) :
    step W f l b (x :: r) τ = enter f l b (f.insn x).bb1 τ := by
  unfold step; dsimp only; rw [if_pos h]

theorem step_cond {W : World} {f : Fn} {l : Nat → Nat} {b x : Nat} {r : List Nat} {τ : St} (h : (f.insn x).op.condJmp = true) :
    step W f l b (x :: r) τ = match taken (f.insn x) (view l τ) with
      | some true => enter f l b (f.insn x).bb2 τ
      | some false => enter f l b (f.insn x).bb1 τ
      | none => .stuck := by
  unfold step; dsimp only
  rw [if_neg (by intro e; rw [e] at h; cases h), if_pos h]
  rfl

theorem step_ret {W : World} {f : Fn} {l : Nat → Nat} {b x : Nat} {r : List Nat} {τ : St} (h : (f.insn x).op = .ret) :
    step W f l b (x :: r) τ = match (f.insn x).vals with
      | [v] => (match eval (view l τ) v with | some y => .done y | none => .stuck)
      | _ => .stuck := by
  unfold step; dsimp only
  rw [if_neg (by rw [h]; simp), if_neg (by rw [h]; simp [Norm.Op.condJmp]), if_pos h]
  rfl

theorem step_throw {W : World} {f : Fn} {l : Nat → Nat} {b x : Nat} {r : List Nat} {τ : St} (h : (f.insn x).op = .throw) :
    step W f l b (x :: r) τ = .thrown := by
  unfold step; simp [h, Norm.Op.condJmp]

theorem step_phi {W : World} {f : Fn} {l : Nat → Nat} {b x : Nat} {r : List Nat} {τ : St} (h : (f.insn x).op = .phi) :
    step W f l b (x :: r) τ = .stuck := by
  unfold step; simp [h, Norm.Op.condJmp]

theorem step_plain {W : World} {f : Fn} {l : Nat → Nat} {b x : Nat} {r : List Nat} {τ : St} (h : Loc.control (f.insn x).op = false) :
    step W f l b (x :: r) τ = match exec W l x (f.insn x) τ with
      | some τ' => .goto b r τ'
      | none => .stuck := by
  simp only [Loc.control, Bool.or_eq_false_iff, decide_eq_false_iff_not] at h
  obtain ⟨⟨⟨⟨c1, c2⟩, c3⟩, c4⟩, c5⟩ := h
  unfold step; dsimp only
  rw [if_neg c1, if_neg (by rw [c2]; simp), if_neg c3, if_neg c4, if_neg c5]
  rfl

/-- The kinds of control instructions. -/
theorem control_cases {o : Op} (h : Loc.control o = true) : o = .ja ∨ o.condJmp = true ∨ o = .ret ∨ o = .throw ∨ o = .phi := by
  simpa [Loc.control, or_assoc] using h

end Verif.Loc
