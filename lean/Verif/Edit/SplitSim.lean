import Verif.Edit.Graph
import Verif.Spec.Paths
/-!
# Splitting a block: simulation
-/
namespace Verif.Edit
open Verif Verif.IR
set_option linter.unusedSimpArgs false

/-- The blocks reached from the moved instructions have no phis, and the moved instructions do not begin with one. -/
structure SplitOk (f : Fn) (b : Nat) (tl : List Nat) : Prop where
  wired : Wired f
  graph : Graph f
  inF : b ∈ f.allBbs
  noPhi : ∀ t ∈ f.succs b, phisOf f t = []
  first : ∀ x, tl.head? = some x → (f.insn x).op ≠ .phi

theorem takeWhile_append_of {p : Nat → Bool} {hd tl : List Nat} (h : ∀ x, tl.head? = some x → p x = false) :
    (hd ++ tl).takeWhile p = hd.takeWhile p ∧ (hd ++ tl).dropWhile p = hd.dropWhile p ++ tl := by
  induction hd with
  | nil =>
    cases tl with
    | nil => simp
    | cons x tl => have := h x rfl; simp [this]
  | cons a hd ih =>
    rw [List.cons_append, List.takeWhile_cons, List.dropWhile_cons, List.takeWhile_cons, List.dropWhile_cons]
    cases p a <;> simp [ih]

theorem Split.phisB {f g : Fn} {b n : Nat} {hd tl : List Nat} (h : Split f b n hd tl g) (ho : SplitOk f b tl) :
    phisOf g b = phisOf f b ∧ codeOf f b = codeOf g b ++ tl ∧ (∀ x ∈ codeOf g b, x ∈ hd) := by
  have := takeWhile_append_of (p := fun x => (f.insn x).op == .phi) (hd := hd) (tl := tl) (by
    intro x hx; simpa using ho.first x hx)
  unfold phisOf codeOf
  rw [h.insn, h.body b ho.inF, if_pos rfl, h.list, this.1, this.2]
  exact ⟨rfl, rfl, fun x hx => (List.dropWhile_sublist _).subset hx⟩

theorem Split.phisC {f g : Fn} {b n c : Nat} {hd tl : List Nat} (h : Split f b n hd tl g) (hc : c ∈ f.allBbs) (hne : c ≠ b) :
    phisOf g c = phisOf f c ∧ codeOf g c = codeOf f c := by
  unfold phisOf codeOf
  rw [h.insn, h.body c hc, if_neg hne]
  exact ⟨rfl, rfl⟩

theorem Split.phisN {f g : Fn} {b n : Nat} {hd tl : List Nat} (h : Split f b n hd tl g) (ho : SplitOk f b tl) :
    phisOf g n = [] ∧ codeOf g n = tl := by
  have := takeWhile_append_of (p := fun x => (f.insn x).op == .phi) (hd := []) (tl := tl) (by
    intro x hx; simpa using ho.first x hx)
  unfold phisOf codeOf
  rw [h.insn, h.bodyN]
  simpa using this

theorem phiAssign_eq {f g : Fn} (h : g.insn = f.insn) (p : Nat) (σ : St) : ∀ xs, phiAssign g p σ xs = phiAssign f p σ xs := by
  intro xs
  induction xs with
  | nil => rfl
  | cons x xs ih => simp only [phiAssign, h, ih]

/-- Positions of `f` and `g` that belong together. -/
inductive Rel (f : Fn) (b n : Nat) (hd tl : List Nat) : Nat → List Nat → Nat → List Nat → Prop
  | other {c : Nat} {rest : List Nat} : c ∈ f.allBbs → c ≠ b → (∀ x ∈ rest, x ∈ f.body c) → Rel f b n hd tl c rest c rest
  | head {r : List Nat} : (∀ x ∈ r, x ∈ hd) → Rel f b n hd tl b (r ++ tl) b r
  | tail {r : List Nat} : (∀ x ∈ r, x ∈ tl) → Rel f b n hd tl b r n r

/-- Results of one step that belong together. -/
inductive StepRel (f : Fn) (b n : Nat) (hd tl : List Nat) : Step → Step → Prop
  | goto {c r c' r' σ} : Rel f b n hd tl c r c' r' → StepRel f b n hd tl (.goto c r σ) (.goto c' r' σ)
  | done {x} : StepRel f b n hd tl (.done x) (.done x)
  | thrown : StepRel f b n hd tl .thrown .thrown
  | stuck : StepRel f b n hd tl .stuck .stuck

theorem Split.entered {f g : Fn} {b n : Nat} {hd tl : List Nat} (h : Split f b n hd tl g) (ho : SplitOk f b tl) {t : Nat}
    (ht : t ∈ f.allBbs) (e : Nat → BitVec 64) (σ : St) :
    StepRel f b n hd tl (.goto t (codeOf f t) { σ with env := e }) (.goto t (codeOf g t) { σ with env := e }) := by
  by_cases ht' : t = b
  · subst ht'
    obtain ⟨_, h2, h3⟩ := h.phisB ho
    rw [h2]
    exact .goto (.head h3)
  · rw [(h.phisC ht ht').2]
    exact .goto (.other ht ht' (fun x hx => (List.dropWhile_sublist _).subset hx))

theorem Split.phis {f g : Fn} {b n : Nat} {hd tl : List Nat} (h : Split f b n hd tl g) (ho : SplitOk f b tl) {t : Nat}
    (ht : t ∈ f.allBbs) : phisOf g t = phisOf f t := by
  by_cases ht' : t = b
  · subst ht'; exact (h.phisB ho).1
  · exact (h.phisC ht ht').1

/-- Entering from the same block. -/
theorem Split.enterSame {f g : Fn} {b n : Nat} {hd tl : List Nat} (h : Split f b n hd tl g) (ho : SplitOk f b tl) {c t : Nat}
    (ht : t ∈ f.allBbs) (σ : St) : StepRel f b n hd tl (enter f c t σ) (enter g c t σ) := by
  unfold enter
  rw [h.phis ho ht, phiAssign_eq h.insn]
  split
  · exact h.entered ho ht _ σ
  · exact .stuck

/-- Entering from `b` in `f` and from the new block in `g`. -/
theorem Split.enterN {f g : Fn} {b n : Nat} {hd tl : List Nat} (h : Split f b n hd tl g) (ho : SplitOk f b tl) {t : Nat}
    (ht : t ∈ f.succs b) (σ : St) : StepRel f b n hd tl (enter f b t σ) (enter g n t σ) := by
  have htf := (ho.graph.succs b ho.inF).2 t ht
  unfold enter
  rw [h.phis ho htf, ho.noPhi t ht]
  simp only [phiAssign]
  exact h.entered ho htf _ σ

theorem exec_step_rel {W : World} {f g : Fn} {b n c c' : Nat} {hd tl r r' : List Nat} {x : Nat} {σ : St} (hi : g.insn = f.insn)
    (hja : (f.insn x).op = .ja → StepRel f b n hd tl (enter f c (f.insn x).bb1 σ) (enter g c' (f.insn x).bb1 σ))
    (hc1 : (f.insn x).op.condJmp = true → StepRel f b n hd tl (enter f c (f.insn x).bb1 σ) (enter g c' (f.insn x).bb1 σ))
    (hc2 : (f.insn x).op.condJmp = true → StepRel f b n hd tl (enter f c (f.insn x).bb2 σ) (enter g c' (f.insn x).bb2 σ))
    (hr : Rel f b n hd tl c r c' r') : StepRel f b n hd tl (step W f c (x :: r) σ) (step W g c' (x :: r') σ) := by
  unfold step
  rw [hi]
  dsimp only
  split
  · exact hja (by assumption)
  · split
    · rename_i hc
      split
      · exact hc2 hc
      · exact hc1 hc
      · exact .stuck
    · split
      · split
        · split
          · exact .done
          · exact .stuck
        · exact .stuck
      · split
        · exact .thrown
        · split
          · exact .stuck
          · split
            · exact .goto hr
            · exact .stuck

/-- One step at related positions, except at the end of the first half. -/
theorem Split.step {W : World} {f g : Fn} {b n : Nat} {hd tl : List Nat} (h : Split f b n hd tl g) (ho : SplitOk f b tl)
    {c c' : Nat} {r r' : List Nat} (hr : Rel f b n hd tl c r c' r') (hne : ¬ (c' = b ∧ r' = [])) (σ : St) :
    StepRel f b n hd tl (IR.step W f c r σ) (IR.step W g c' r' σ) ∧ r.take 1 = r'.take 1 := by
  have hall : ∀ c ∈ f.allBbs, ∀ t ∈ f.succs c, t ∈ f.allBbs := fun c hc t ht => (ho.graph.succs c hc).2 t ht
  have hbn : b ≠ n := fun e => h.fresh (by rw [← e]; exact ho.inF)
  cases hr with
  | other hc hcb hx =>
    refine ⟨?_, rfl⟩
    cases r with
    | nil =>
      have hcn : c ≠ n := fun e => h.fresh (by rw [← e]; exact hc)
      simp only [IR.step]
      rw [h.succs, if_neg hcb, if_neg hcn]
      split
      · rename_i t hs
        exact h.enterSame ho (hall c hc t (by rw [hs]; simp)) σ
      · exact .stuck
    | cons x r =>
      have hw := ho.wired c hc x (hx x (List.mem_cons_self ..))
      exact exec_step_rel h.insn (fun e => h.enterSame ho (hall c hc _ (hw.1 e)) σ) (fun e => h.enterSame ho (hall c hc _ (hw.2 e).1) σ)
        (fun e => h.enterSame ho (hall c hc _ (hw.2 e).2) σ) (.other hc hcb (fun y hy => hx y (List.mem_cons_of_mem _ hy)))
  | head hx =>
    cases r' with
    | nil => exact absurd ⟨rfl, rfl⟩ hne
    | cons x r =>
      refine ⟨?_, rfl⟩
      have hw := ho.wired b ho.inF x (by rw [h.list]; exact List.mem_append_left _ (hx x (List.mem_cons_self ..)))
      exact exec_step_rel h.insn (fun e => h.enterSame ho (hall b ho.inF _ (hw.1 e)) σ) (fun e => h.enterSame ho (hall b ho.inF _ (hw.2 e).1) σ)
        (fun e => h.enterSame ho (hall b ho.inF _ (hw.2 e).2) σ) (.head (fun y hy => hx y (List.mem_cons_of_mem _ hy)))
  | tail hx =>
    refine ⟨?_, rfl⟩
    cases r with
    | nil =>
      simp only [IR.step]
      rw [h.succs, if_neg (fun e => hbn e.symm), if_pos rfl]
      split
      · rename_i t hs
        exact h.enterN ho (by rw [hs]; simp) σ
      · exact .stuck
    | cons x r =>
      have hw := ho.wired b ho.inF x (by rw [h.list]; exact List.mem_append_right _ (hx x (List.mem_cons_self ..)))
      exact exec_step_rel h.insn (fun e => h.enterN ho (hw.1 e) σ) (fun e => h.enterN ho (hw.2 e).1 σ)
        (fun e => h.enterN ho (hw.2 e).2 σ) (.tail (fun y hy => hx y (List.mem_cons_of_mem _ hy)))

/-- At the end of the first half, `g` goes on to the second. -/
theorem Split.cross {W : World} {f g : Fn} {b n : Nat} {hd tl : List Nat} (h : Split f b n hd tl g) (ho : SplitOk f b tl) (σ : St) :
    IR.step W g b [] σ = .goto n tl σ := by
  simp only [IR.step]
  rw [h.succs, if_pos rfl]
  simp only [enter]
  rw [(h.phisN ho).1, (h.phisN ho).2]
  rfl

theorem Rel.end {f : Fn} {b n : Nat} {hd tl : List Nat} {c c' : Nat} {r r' : List Nat} (hbn : b ≠ n) (h : Rel f b n hd tl c r c' r')
    (h1 : c' = b) (h2 : r' = []) : c = b ∧ r = tl := by
  cases h with
  | other _ h3 _ => exact absurd h1 h3
  | head _ => subst h2; exact ⟨rfl, rfl⟩
  | tail _ => exact absurd h1.symm hbn

/-- Every run of `f` is a run of `g`. -/
theorem Split.forward {W : World} {f g : Fn} {b n : Nat} {hd tl : List Nat} (h : Split f b n hd tl g) (ho : SplitOk f b tl) :
    ∀ (k : Nat) {c c' : Nat} {r r' : List Nat} (σ : St), Rel f b n hd tl c r c' r' →
    ∃ m, k ≤ m ∧ path W g m c' r' σ = path W f k c r σ ∧ SameRes (run W f k c r σ) (run W g m c' r' σ) := by
  have main : ∀ (k : Nat), (∀ {c c' : Nat} {r r' : List Nat} (σ : St), Rel f b n hd tl c r c' r' →
      ∃ m, k ≤ m ∧ path W g m c' r' σ = path W f k c r σ ∧ SameRes (run W f k c r σ) (run W g m c' r' σ)) →
      ∀ {c c' : Nat} {r r' : List Nat} (σ : St), Rel f b n hd tl c r c' r' → ¬ (c' = b ∧ r' = []) →
      ∃ m, k + 1 ≤ m ∧ path W g m c' r' σ = path W f (k + 1) c r σ ∧ SameRes (run W f (k + 1) c r σ) (run W g m c' r' σ) := by
    intro k ih c c' r r' σ hr hne
    obtain ⟨hs, ht⟩ := h.step (W := W) ho hr hne σ
    simp only [path, run, ht]
    generalize IR.step W f c r σ = s at hs
    generalize hs' : IR.step W g c' r' σ = s' at hs
    cases hs with
    | goto hr' =>
      rename_i σ'
      obtain ⟨m, h1, h2, h3⟩ := ih σ' hr'
      exact ⟨m + 1, by omega, by simp only [path, hs', h2], by simp only [run, hs']; exact h3⟩
    | done => exact ⟨k + 1, by omega, by simp only [path, hs'], by simp only [run, hs']; exact .done ..⟩
    | thrown => exact ⟨k + 1, by omega, by simp only [path, hs'], by simp only [run, hs']; exact .thrown ..⟩
    | stuck => exact ⟨k + 1, by omega, by simp only [path, hs'], by simp only [run, hs']; exact .stuck⟩
  have hbn : b ≠ n := fun e => h.fresh (by rw [← e]; exact ho.inF)
  intro k
  induction k with
  | zero => intro c c' r r' σ _; exact ⟨0, Nat.le_refl _, rfl, .running ..⟩
  | succ k ih =>
    intro c c' r r' σ hr
    by_cases hne : c' = b ∧ r' = []
    · obtain ⟨rfl, rfl⟩ := hr.end hbn hne.1 hne.2
      obtain ⟨rfl, rfl⟩ := hne
      have hr2 : Rel f c' n hd r c' r n r := .tail (fun x hx => hx)
      obtain ⟨m, h1, h2, h3⟩ := main k ih σ hr2 (fun e => hbn e.1.symm)
      refine ⟨m + 1, by omega, ?_, ?_⟩
      · rw [← h2]; simp only [path, h.cross ho]; rfl
      · simp only [run, h.cross ho]; exact h3
    · exact main k ih σ hr hne

/-- Every run of `g` is a run of `f`. -/
theorem Split.backward {W : World} {f g : Fn} {b n : Nat} {hd tl : List Nat} (h : Split f b n hd tl g) (ho : SplitOk f b tl) :
    ∀ (m : Nat) {c c' : Nat} {r r' : List Nat} (σ : St), Rel f b n hd tl c r c' r' →
    ∃ k, path W g m c' r' σ = path W f k c r σ ∧ SameRes (run W f k c r σ) (run W g m c' r' σ) := by
  have hbn : b ≠ n := fun e => h.fresh (by rw [← e]; exact ho.inF)
  intro m
  induction m with
  | zero => intro c c' r r' σ _; exact ⟨0, rfl, .running ..⟩
  | succ m ih =>
    intro c c' r r' σ hr
    by_cases hne : c' = b ∧ r' = []
    · obtain ⟨rfl, rfl⟩ := hr.end hbn hne.1 hne.2
      obtain ⟨rfl, rfl⟩ := hne
      obtain ⟨k, h2, h3⟩ := ih σ (.tail (fun x hx => hx) : Rel f c' n hd r c' r n r)
      refine ⟨k, ?_, ?_⟩
      · rw [← h2]; simp only [path, h.cross ho]; rfl
      · simp only [run, h.cross ho]; exact h3
    · obtain ⟨hs, ht⟩ := h.step (W := W) ho hr hne σ
      simp only [path, run]
      generalize hs0 : IR.step W f c r σ = s at hs
      generalize hs' : IR.step W g c' r' σ = s' at hs
      cases hs with
      | goto hr' =>
        rename_i σ'
        obtain ⟨k, h2, h3⟩ := ih σ' hr'
        exact ⟨k + 1, by simp only [path, hs0, h2, ht], by simp only [run, hs0]; exact h3⟩
      | done => exact ⟨1, by simp only [path, hs0, ht], by simp only [run, hs0]; exact .done ..⟩
      | thrown => exact ⟨1, by simp only [path, hs0, ht], by simp only [run, hs0]; exact .thrown ..⟩
      | stuck => exact ⟨1, by simp only [path, hs0, ht], by simp only [run, hs0]; exact .stuck⟩

end Verif.Edit
