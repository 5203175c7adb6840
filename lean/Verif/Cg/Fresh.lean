import Verif.Cg.Grow
import Verif.Spec.Loc
/-!
# Places needed after instructions were added
-/
namespace Verif.Cg
open Verif Verif.IR Verif.Edit Verif.Loc

/-- The instructions read `q` before they write it, or do not write it and `P`. -/
def needs (g : Fn) (k : Nat → Nat) (q : Nat) : List Nat → Prop → Prop
  | [], P => P
  | x :: xs, P => q ∈ reads k (g.insn x) ∨ (q ∉ writes k x (g.insn x) ∧ needs g k q xs P)

theorem needs.imp {g : Fn} {k : Nat → Nat} {q : Nat} {P Q : Prop} (h : P → Q) : ∀ {xs : List Nat}, needs g k q xs P → needs g k q xs Q
  | [], hp => h hp
  | _ :: _, .inl hp => .inl hp
  | _ :: _, .inr hp => .inr ⟨hp.1, hp.2.imp h⟩

/-- Instructions that do not touch `q`. -/
theorem needs.pass {g : Fn} {k : Nat → Nat} {q : Nat} {P : Prop} : ∀ {xs : List Nat} {ys : List Nat}, needs g k q (xs ++ ys) P → (∀ x ∈ xs, q ∉ reads k (g.insn x)) → needs g k q ys P
  | [], _, hp, _ => hp
  | _ :: _, _, .inl hp, h => absurd hp (h _ List.mem_cons_self)
  | _ :: _, _, .inr hp, h => hp.2.pass (fun x hx => h x (List.mem_cons_of_mem _ hx))

theorem needs.skip {g : Fn} {k : Nat → Nat} {q : Nat} {P : Prop} {xs : List Nat} (h : needs g k q xs P) (hr : ∀ x ∈ xs, q ∉ reads k (g.insn x)) : P :=
  needs.pass (xs := xs) (ys := []) (by rw [List.append_nil]; exact h) hr

theorem needs_append {g : Fn} {k : Nat → Nat} {q : Nat} {P : Prop} : ∀ {xs ys : List Nat}, needs g k q (xs ++ ys) P → needs g k q xs (needs g k q ys P)
  | [], _, h => h
  | _ :: _, _, .inl h => .inl h
  | _ :: _, _, .inr h => .inr ⟨h.1, needs_append h.2⟩

/-- Instructions that write `q` and do not read it. -/
theorem needs.written {g : Fn} {k : Nat → Nat} {q : Nat} {P : Prop} : ∀ {xs : List Nat}, needs g k q xs P → (∀ x ∈ xs, q ∉ reads k (g.insn x)) →
    ∀ n ∈ xs, q ∈ writes k n (g.insn n) → False
  | _ :: _, .inl h, hr, _, _, _ => hr _ List.mem_cons_self h
  | x :: xs, .inr h, hr, n, hn, hw => by
    rcases List.mem_cons.1 hn with rfl | hn
    · exact h.1 hw
    · exact h.2.written (fun y hy => hr y (List.mem_cons_of_mem _ hy)) n hn hw

/-- At the end of block `b`: a phi of a successor reads `q`, or no phi writes it and it is needed there. -/
def Leaves (f g : Fn) (k : Nat → Nat) (q : Nat) (H : Nat → List Nat) (F : Nat → List Nat → Prop) (b : Nat) : Prop :=
  ∃ c ∈ f.succs b, (∃ x ∈ phisOf f c, ∃ y, (b, Val.insn y) ∈ (g.insn x).phi ∧ q = k y) ∨
    ((∀ x ∈ phisOf f c, q ≠ k x) ∧ needs g k q (H c) (F c (codeOf f c)))

variable {f g : Fn} {R : List Nat} {H N M T : Nat → List Nat} {k : Nat → Nat} {q : Nat}

/-- `F` holds wherever `q` is needed. -/
theorem needed_grown (hR : ∀ a ∈ R, ∀ b ∈ f.succs a, b ∈ R) (hs : g.succs = f.succs)
    (hc : ∀ b ∈ R, phisOf g b = phisOf f b ∧ codeOf g b = H b ++ (ex N M (codeOf f b) ++ T b)) {F : Nat → List Nat → Prop}
    (chunk : ∀ b ∈ R, ∀ pre x xs, codeOf f b = pre ++ x :: xs → needs g k q (N x ++ x :: M x) (F b xs) → F b (x :: xs))
    (fin : ∀ b ∈ R, needs g k q (T b) (Leaves f g k q H F b) → F b [])
    {b : Nat} (hb : b ∈ R) (h : Needed g k q b (codeOf g b)) : needs g k q (H b) (F b (codeOf f b)) := by
  have key : ∀ b L, Needed g k q b L → b ∈ R →
      (∀ A pre xs, codeOf f b = pre ++ xs → L = A ++ (ex N M xs ++ T b) → needs g k q A (F b xs)) ∧
      (∀ pre, T b = pre ++ L → needs g k q L (Leaves f g k q H F b)) := by
    -- from the statement for a list that starts with an instruction
    have lift : ∀ b s rest, b ∈ R → (∀ A pre xs, codeOf f b = pre ++ xs → rest = A ++ (ex N M xs ++ T b) → needs g k q (s :: A) (F b xs)) →
        (∀ pre, T b = pre ++ s :: rest → needs g k q (s :: rest) (Leaves f g k q H F b)) →
        ∀ A pre xs, codeOf f b = pre ++ xs → s :: rest = A ++ (ex N M xs ++ T b) → needs g k q A (F b xs) := by
      intro b s rest hb h1 h2 A pre xs hx e
      cases A with
      | cons a A =>
        rw [List.cons_append] at e
        injection e with e1 e2
        subst e1
        exact h1 A pre xs hx e2
      | nil =>
        show F b xs
        cases xs with
        | nil =>
          simp only [ex, List.flatMap_nil, List.nil_append] at e
          exact fin b hb (e ▸ h2 [] e.symm)
        | cons x xs =>
          refine chunk b hb pre x xs hx ?_
          rw [List.nil_append, ex_cons] at e
          cases hN : N x with
          | nil =>
            rw [hN, List.nil_append, List.cons_append] at e
            injection e with e1 e2
            subst e1
            exact h1 (M s) (pre ++ [s]) xs (by rw [hx]; simp) (by rw [e2]; simp)
          | cons n ns =>
            rw [hN, List.cons_append, List.cons_append] at e
            injection e with e1 e2
            subst e1
            exact h1 (ns ++ x :: M x) (pre ++ [x]) xs (by rw [hx]; simp) (by rw [e2]; simp)
    intro b L h
    induction h with
    | @read b s rest hq =>
      intro hb
      have h2 : ∀ pre, T b = pre ++ s :: rest → needs g k q (s :: rest) (Leaves f g k q H F b) := fun pre _ => .inl hq
      exact ⟨lift b s rest hb (fun A pre xs _ _ => .inl hq) h2, h2⟩
    | @skip b s rest hq _ ih =>
      intro hb
      obtain ⟨i1, i2⟩ := ih hb
      have h2 : ∀ pre, T b = pre ++ s :: rest → needs g k q (s :: rest) (Leaves f g k q H F b) := fun pre e => .inr ⟨hq, i2 (pre ++ [s]) (by rw [e]; simp)⟩
      exact ⟨lift b s rest hb (fun A pre xs hx e => .inr ⟨hq, i1 A pre xs hx e⟩) h2, h2⟩
    | @phi b c x y hc' hx hm hq =>
      intro hb
      rw [hs] at hc'
      have h3 : Leaves f g k q H F b := ⟨c, hc', .inl ⟨x, by rw [← (hc c (hR b hb c hc')).1]; exact hx, y, hm, hq⟩⟩
      refine ⟨fun A pre xs hx e => ?_, fun pre _ => h3⟩
      have e := e.symm
      rw [List.append_eq_nil_iff, List.append_eq_nil_iff] at e
      obtain ⟨e1, e2, e3⟩ := e
      have e4 : xs = [] := by
        cases xs with
        | nil => rfl
        | cons x xs => rw [ex_cons] at e2; simp at e2
      subst e1; subst e4
      exact fin b hb (by rw [e3]; exact h3)
    | @edge b c hc' hp _ ih =>
      intro hb
      rw [hs] at hc'
      have hcR := hR b hb c hc'
      rw [(hc c hcR).1] at hp
      have h3 : Leaves f g k q H F b :=
        ⟨c, hc', .inr ⟨hp, (ih hcR).1 (H c) [] (codeOf f c) rfl (hc c hcR).2⟩⟩
      refine ⟨fun A pre xs hx e => ?_, fun pre _ => h3⟩
      have e := e.symm
      rw [List.append_eq_nil_iff, List.append_eq_nil_iff] at e
      obtain ⟨e1, e2, e3⟩ := e
      have e4 : xs = [] := by
        cases xs with
        | nil => rfl
        | cons x xs => rw [ex_cons] at e2; simp at e2
      subst e1; subst e4
      exact fin b hb (by rw [e3]; exact h3)
  exact (key b _ h hb).1 (H b) [] (codeOf f b) rfl (hc b hb).2

end Verif.Cg
