import Verif.Guard.Sim
/-!
# Inserting a check: executions
-/
namespace Verif.Guard
open Verif Verif.IR Verif.Edit
set_option linter.unusedSimpArgs false

variable {W : World} {f g : Fn} {b n e : Nat} {hd tl : List Nat} {i : Insn}

/-- Positions of `f` and `g` that belong together; `j` is the jump. -/
inductive GRel (f : Fn) (b n : Nat) (hd tl : List Nat) : Nat → List Nat → Nat → List Nat → Prop
  | other {c : Nat} {rest : List Nat} : c ∈ f.allBbs → c ≠ b → (∀ x ∈ rest, x ∈ f.body c) → GRel f b n hd tl c rest c rest
  | head {r : List Nat} : (∀ x ∈ r, x ∈ hd) → GRel f b n hd tl b (r ++ tl) b (r ++ [f.next + 1])
  | tail {r : List Nat} : (∀ x ∈ r, x ∈ tl) → GRel f b n hd tl b r n r

/-- Results of one step that belong together. -/
inductive SRel (f : Fn) (b n : Nat) (hd tl : List Nat) : Step → Step → Prop
  | goto {c r c' r' σ} : GRel f b n hd tl c r c' r' → SRel f b n hd tl (.goto c r σ) (.goto c' r' σ)
  | done {x} : SRel f b n hd tl (.done x) (.done x)
  | thrown : SRel f b n hd tl .thrown .thrown
  | stuck : SRel f b n hd tl .stuck .stuck

/-- The moved instructions do not begin with a phi. -/
structure GOk (f : Fn) (tl : List Nat) : Prop where
  shape : Shape f
  first : ∀ x, tl.head? = some x → (f.insn x).op ≠ .phi

theorem Guard.phisN (G : Guard f b n e hd tl i g) (ho : GOk f tl) : phisOf g n = [] ∧ codeOf g n = tl := by
  unfold phisOf codeOf
  rw [G.bodyN]
  cases tl with
  | nil => exact absurd rfl G.nonempty
  | cons x tl =>
    have h := ho.first x rfl
    rw [← G.insn_old (lt_of_body ho.shape.tidy G.inF (by rw [G.list]; simp))] at h
    simp [List.takeWhile_cons, List.dropWhile_cons, h]

theorem Guard.phisE (G : Guard f b n e hd tl i g) : phisOf g e = [] ∧ codeOf g e = [f.next] := by
  unfold phisOf codeOf
  rw [G.bodyE]
  simp [List.takeWhile_cons, List.dropWhile_cons, G.insn_t, mkThrow]

theorem Guard.phisB (G : Guard f b n e hd tl i g) (ho : GOk f tl) :
    phisOf g b = phisOf f b ∧ ∃ r, (∀ x ∈ r, x ∈ hd) ∧ codeOf f b = r ++ tl ∧ codeOf g b = r ++ [f.next + 1] := by
  have hlt : ∀ x ∈ hd, x < f.next := fun x hx => lt_of_body ho.shape.tidy G.inF (by rw [G.list]; exact List.mem_append_left _ hx)
  have h1 := takeWhile_append_of (p := fun x => (f.insn x).op == .phi) (hd := hd) (tl := tl) (by
    intro x hx; simpa using ho.first x hx)
  have h2 := takeWhile_append_of (p := fun x => (g.insn x).op == .phi) (hd := hd) (tl := [f.next + 1]) (by
    intro x hx
    cases hx
    rw [G.insn_j]
    simpa using cond_not_phi G.cond)
  have h3 : ∀ x ∈ hd, ((g.insn x).op == .phi) = ((f.insn x).op == .phi) := fun x hx => by rw [G.insn_old (hlt x hx)]
  unfold phisOf codeOf
  rw [G.body b G.inF, if_pos rfl, G.list, h1.1, h1.2, h2.1, h2.2, (takeWhile_congr h3).1, (takeWhile_congr h3).2]
  exact ⟨rfl, _, fun x hx => (List.dropWhile_sublist _).subset hx, rfl, rfl⟩

theorem Guard.phisC (G : Guard f b n e hd tl i g) (ho : GOk f tl) {c : Nat} (hc : c ∈ f.allBbs) (hne : c ≠ b) :
    phisOf g c = phisOf f c ∧ codeOf g c = codeOf f c := by
  have h3 : ∀ x ∈ f.body c, ((g.insn x).op == .phi) = ((f.insn x).op == .phi) := fun x hx => by
    rw [G.insn_old (lt_of_body ho.shape.tidy hc hx)]
  unfold phisOf codeOf
  rw [G.body c hc, if_neg hne, (takeWhile_congr h3).1, (takeWhile_congr h3).2]
  exact ⟨rfl, rfl⟩

theorem Guard.phis (G : Guard f b n e hd tl i g) (ho : GOk f tl) {c : Nat} (hc : c ∈ f.allBbs) : phisOf g c = phisOf f c := by
  by_cases h : c = b
  · subst h; exact (G.phisB ho).1
  · exact (G.phisC ho hc h).1

theorem Guard.entered (G : Guard f b n e hd tl i g) (ho : GOk f tl) {t : Nat} (ht : t ∈ f.allBbs) (σ : St) :
    SRel f b n hd tl (.goto t (codeOf f t) σ) (.goto t (codeOf g t) σ) := by
  by_cases h : t = b
  · subst h
    obtain ⟨_, r, h1, h2, h3⟩ := G.phisB ho
    rw [h2, h3]
    exact .goto (.head h1)
  · rw [(G.phisC ho ht h).2]
    exact .goto (.other ht h (fun x hx => (List.dropWhile_sublist _).subset hx))

theorem phiAssign_congr {f g : Fn} (p : Nat) (σ : St) : ∀ xs, (∀ x ∈ xs, g.insn x = f.insn x) → phiAssign g p σ xs = phiAssign f p σ xs := by
  intro xs
  induction xs with
  | nil => intros; rfl
  | cons x xs ih =>
    intro h
    simp only [phiAssign, h x (List.mem_cons_self ..), ih (fun y hy => h y (List.mem_cons_of_mem _ hy))]

theorem phisOf_body {f : Fn} {t x : Nat} (h : x ∈ phisOf f t) : x ∈ f.body t ∧ (f.insn x).op = .phi := by
  have := takeWhile_mem _ _ _ h
  exact ⟨this.1, by simpa using this.2⟩

theorem Guard.enterSame (G : Guard f b n e hd tl i g) (ho : GOk f tl) {c t : Nat} (ht : t ∈ f.allBbs) (σ : St) :
    SRel f b n hd tl (enter f c t σ) (enter g c t σ) := by
  unfold enter
  rw [G.phis ho ht, phiAssign_congr c σ (phisOf f t) (fun x hx => G.insn_old (lt_of_body ho.shape.tidy ht (phisOf_body hx).1))]
  split
  · exact G.entered ho ht _
  · exact .stuck

/-- Entering from `b` in `f` and from the new block in `g`: if there are phis, `g` is stuck because they do not know the
new block. -/
theorem Guard.enterN (G : Guard f b n e hd tl i g) (ho : GOk f tl) {t : Nat} (ht : t ∈ f.succs b) (σ : St) :
    SRel f b n hd tl (enter f b t σ) (enter g n t σ) ∨ (enter g n t σ = .stuck ∧ phisOf f t ≠ []) := by
  have htf := (ho.shape.graph.succs b G.inF).2 t ht
  cases hp : phisOf f t with
  | nil =>
    left
    unfold enter
    rw [G.phis ho htf, hp]
    simp only [phiAssign]
    exact G.entered ho htf _
  | cons x xs =>
    right
    refine ⟨?_, by simp⟩
    have hx := phisOf_body (f := f) (t := t) (x := x) (by rw [hp]; simp)
    unfold enter
    rw [G.phis ho htf, hp]
    simp only [phiAssign]
    have : phiVal (g.insn x) n σ = none := by
      unfold phiVal
      rw [G.insn_old (lt_of_body ho.shape.tidy htf hx.1)]
      have : (f.insn x).phi.find? (fun o => o.1 == n) = none := by
        rw [List.find?_eq_none]
        intro o h1 h2
        exact G.freshN (by rw [← (beq_iff_eq.1 h2)]; exact ho.shape.labels t htf x hx.1 hx.2 o h1)
      rw [this]
      rfl
    rw [this]
    rfl

/-- A step of an instruction that both have. -/
theorem step_insn {c c' : Nat} {r r' : List Nat} {x : Nat} {σ : St} {Q : Step → Step → Prop} (hi : g.insn x = f.insn x)
    (hja : (f.insn x).op = .ja → Q (enter f c (f.insn x).bb1 σ) (enter g c' (f.insn x).bb1 σ))
    (hc1 : (f.insn x).op.condJmp = true → Q (enter f c (f.insn x).bb1 σ) (enter g c' (f.insn x).bb1 σ))
    (hc2 : (f.insn x).op.condJmp = true → Q (enter f c (f.insn x).bb2 σ) (enter g c' (f.insn x).bb2 σ))
    (hd : ∀ v, Q (.done v) (.done v)) (ht : Q .thrown .thrown) (hs : Q .stuck .stuck)
    (hr : ends (f.insn x).op = false → ∀ τ, Q (.goto c r τ) (.goto c' r' τ)) :
    Q (step W f c (x :: r) σ) (step W g c' (x :: r') σ) := by
  unfold step
  dsimp only
  rw [hi]
  split
  · exact hja (by assumption)
  · rename_i h1
    split
    · rename_i hc
      split
      · exact hc2 hc
      · exact hc1 hc
      · exact hs
    · rename_i h2
      split
      · split
        · split
          · exact hd _
          · exact hs
        · exact hs
      · rename_i h3
        split
        · exact ht
        · rename_i h4
          split
          · exact hs
          · split
            · refine hr ?_ _
              revert h1 h2 h3 h4
              cases (f.insn x).op <;> simp [ends, Norm.Op.condJmp]
            · exact hs

/-- One step at related positions, except at the inserted jump. -/
theorem Guard.step (G : Guard f b n e hd tl i g) (ho : GOk f tl) {c c' : Nat} {r r' : List Nat} (hr : GRel f b n hd tl c r c' r')
    (hne : ¬ (c' = b ∧ r' = [f.next + 1])) (σ : St) :
    SRel f b n hd tl (IR.step W f c r σ) (IR.step W g c' r' σ) ∨ (IR.step W g c' r' σ = .stuck ∧ ∃ t ∈ f.succs b, phisOf f t ≠ []) := by
  have hall : ∀ c ∈ f.allBbs, ∀ t ∈ f.succs c, t ∈ f.allBbs := fun c hc t ht => (ho.shape.graph.succs c hc).2 t ht
  have hlt : ∀ c ∈ f.allBbs, ∀ x ∈ f.body c, g.insn x = f.insn x := fun c hc x hx => G.insn_old (lt_of_body ho.shape.tidy hc hx)
  cases hr with
  | other hc hcb hx =>
    left
    cases r with
    | nil =>
      have hcn : c ≠ n := fun e => G.freshN (by rw [← e]; exact hc)
      have hce : c ≠ e := fun e => G.freshE (by rw [← e]; exact hc)
      simp only [IR.step]
      rw [G.succs, if_neg hcb, if_neg hcn, if_neg hce]
      split
      · rename_i t hs
        exact G.enterSame ho (hall c hc t (by rw [hs]; simp)) σ
      · exact .stuck
    | cons x r =>
      have hx0 := hx x (List.mem_cons_self ..)
      have hw := ho.shape.wired c hc x hx0
      exact step_insn (hlt c hc x hx0) (fun e => G.enterSame ho (hall c hc _ (hw.1 e)) σ)
        (fun e => G.enterSame ho (hall c hc _ (hw.2 e).1) σ) (fun e => G.enterSame ho (hall c hc _ (hw.2 e).2) σ)
        (fun _ => .done) .thrown .stuck (fun _ _ => .goto (.other hc hcb (fun y hy => hx y (List.mem_cons_of_mem _ hy))))
  | @head r0 hx =>
    cases r0 with
    | nil => exact absurd ⟨rfl, rfl⟩ hne
    | cons x r =>
      left
      have hx0 : x ∈ f.body b := by rw [G.list]; exact List.mem_append_left _ (hx x (List.mem_cons_self ..))
      have hw := ho.shape.wired b G.inF x hx0
      exact step_insn (hlt b G.inF x hx0) (fun e => G.enterSame ho (hall b G.inF _ (hw.1 e)) σ)
        (fun e => G.enterSame ho (hall b G.inF _ (hw.2 e).1) σ) (fun e => G.enterSame ho (hall b G.inF _ (hw.2 e).2) σ)
        (fun _ => .done) .thrown .stuck (fun _ _ => .goto (.head (fun y hy => hx y (List.mem_cons_of_mem _ hy))))
  | tail hx =>
    cases r with
    | nil =>
      simp only [IR.step]
      rw [G.succs, if_neg (fun e => G.hbn e.symm), if_pos rfl]
      split
      · rename_i t hs
        rcases G.enterN ho (t := t) (by rw [hs]; simp) σ with h | h
        · exact .inl h
        · exact .inr ⟨h.1, t, by rw [hs]; simp, h.2⟩
      · exact .inl .stuck
    | cons x r =>
      have hx0 : x ∈ f.body b := by rw [G.list]; exact List.mem_append_right _ (hx x (List.mem_cons_self ..))
      have hw := ho.shape.wired b G.inF x hx0
      have hQ : ∀ t ∈ f.succs b, (fun s s' => SRel f b n hd tl s s' ∨ (s' = .stuck ∧ ∃ t ∈ f.succs b, phisOf f t ≠ [])) (enter f b t σ) (enter g n t σ) := by
        intro t ht
        rcases G.enterN ho ht σ with h | h
        · exact .inl h
        · exact .inr ⟨h.1, t, ht, h.2⟩
      exact step_insn (Q := fun s s' => SRel f b n hd tl s s' ∨ (s' = .stuck ∧ ∃ t ∈ f.succs b, phisOf f t ≠ [])) (hlt b G.inF x hx0)
        (fun e => hQ _ (hw.1 e)) (fun e => hQ _ (hw.2 e).1) (fun e => hQ _ (hw.2 e).2)
        (fun _ => .inl .done) (.inl .thrown) (.inl .stuck) (fun _ _ => .inl (.goto (.tail (fun y hy => hx y (List.mem_cons_of_mem _ hy)))))

/-- The inserted jump. -/
theorem Guard.jump (G : Guard f b n e hd tl i g) (ho : GOk f tl) (σ : St) : IR.step W g b [f.next + 1] σ =
    match taken i σ with
    | some true => .goto e [f.next] σ
    | some false => .goto n tl σ
    | none => .stuck := by
  have h1 : i.op ≠ .ja := by intro h; have := G.cond; rw [h] at this; cases this
  simp only [IR.step]
  rw [G.insn_j, if_neg h1, if_pos G.cond, G.bb1, G.bb2]
  unfold enter
  rw [G.phisE.1, G.phisE.2, (G.phisN ho).1, (G.phisN ho).2]
  rfl

theorem Guard.err (G : Guard f b n e hd tl i g) (σ : St) : IR.step W g e [f.next] σ = .thrown := by
  simp only [IR.step, G.insn_t, mkThrow, Norm.Op.condJmp]
  rfl

theorem GRel.jump {c c' : Nat} {r r' : List Nat} (hnb : b ≠ n)
    (h : GRel f b n hd tl c r c' r') (h1 : c' = b) (h2 : r' = [f.next + 1]) : c = b ∧ r = tl := by
  cases h with
  | other _ h3 _ => exact absurd h1 h3
  | @head r0 hx =>
    cases r0 with
    | nil => exact ⟨rfl, rfl⟩
    | cons x r0 => simp at h2
  | tail _ => exact absurd h1.symm hnb

/-- In `f` the check would fail at the position where the block was split. -/
def Fails (W : World) (f : Fn) (b : Nat) (tl : List Nat) (i : Insn) (k c : Nat) (r : List Nat) (σ τ : St) : Prop :=
  run W f k c r σ = .running b tl τ ∧ taken i τ = some true

/-- What a result of `g` says about `f`. -/
def Comes (W : World) (f : Fn) (b n e : Nat) (hd tl : List Nat) (i : Insn) (c : Nat) (r : List Nat) (σ : St) : Res → Prop
  | .running c2' r2' τ => (∃ k c2 r2, run W f k c r σ = .running c2 r2 τ ∧ GRel f b n hd tl c2 r2 c2' r2') ∨
      (c2' = e ∧ r2' = [f.next] ∧ ∃ k, Fails W f b tl i k c r σ τ)
  | .done x τ => ∃ k, run W f k c r σ = .done x τ
  | .thrown τ => (∃ k, run W f k c r σ = .thrown τ) ∨ ∃ k, Fails W f b tl i k c r σ τ
  | .stuck => (∃ k, run W f k c r σ = .stuck) ∨ (∃ t ∈ f.succs b, phisOf f t ≠ []) ∨ ∃ τ, taken i τ = none

theorem Comes.step {c c1 : Nat} {r r1 : List Nat} {σ σ1 : St} (hs : IR.step W f c r σ = .goto c1 r1 σ1) {res : Res}
    (h : Comes W f b n e hd tl i c1 r1 σ1 res) : Comes W f b n e hd tl i c r σ res := by
  have hk : ∀ k, run W f (k + 1) c r σ = run W f k c1 r1 σ1 := fun k => by simp only [run, hs]
  unfold Comes Fails at h ⊢
  cases res with
  | running c2 r2 τ =>
    rcases h with ⟨k, c3, r3, h1, h2⟩ | ⟨h0, h0', k, h1, h2⟩
    · exact .inl ⟨k + 1, c3, r3, by rw [hk]; exact h1, h2⟩
    · exact .inr ⟨h0, h0', k + 1, by rw [hk]; exact h1, h2⟩
  | done x τ => obtain ⟨k, h⟩ := h; exact ⟨k + 1, by rw [hk]; exact h⟩
  | thrown τ =>
    rcases h with ⟨k, h1⟩ | ⟨k, h1, h2⟩
    · exact .inl ⟨k + 1, by rw [hk]; exact h1⟩
    · exact .inr ⟨k + 1, by rw [hk]; exact h1, h2⟩
  | stuck =>
    rcases h with ⟨k, h1⟩ | h
    · exact .inl ⟨k + 1, by rw [hk]; exact h1⟩
    · exact .inr h

/-- Every run of `g` is a run of `f`, or one where the check fails. -/
theorem Guard.backward (G : Guard f b n e hd tl i g) (ho : GOk f tl) : ∀ (m : Nat) {c c' : Nat} {r r' : List Nat} (σ : St),
    GRel f b n hd tl c r c' r' → Comes W f b n e hd tl i c r σ (run W g m c' r' σ) := by
  intro m
  induction m with
  | zero => intro c c' r r' σ hr; exact .inl ⟨0, c, r, rfl, hr⟩
  | succ m ih =>
    intro c c' r r' σ hr
    by_cases hne : c' = b ∧ r' = [f.next + 1]
    · obtain ⟨rfl, rfl⟩ := hr.jump G.hbn hne.1 hne.2
      obtain ⟨rfl, rfl⟩ := hne
      simp only [run, G.jump ho]
      cases ht : taken i σ with
      | none => exact .inr (.inr ⟨σ, ht⟩)
      | some v =>
        cases v with
        | false => exact ih σ (.tail (fun x hx => hx))
        | true =>
          cases m with
          | zero => exact .inr ⟨rfl, rfl, 0, rfl, ht⟩
          | succ m => simp only [run, G.err]; exact .inr ⟨0, rfl, ht⟩
    · rcases G.step (W := W) ho hr hne σ with hs | ⟨hs, h2⟩
      · simp only [run]
        generalize hs0 : IR.step W f c r σ = s at hs
        generalize hs' : IR.step W g c' r' σ = s' at hs
        cases hs with
        | goto hr' => exact Comes.step hs0 (ih _ hr')
        | done => exact ⟨1, by simp only [run, hs0]⟩
        | thrown => exact .inl ⟨1, by simp only [run, hs0]⟩
        | stuck => exact .inl ⟨1, by simp only [run, hs0]⟩
      · simp only [run, hs]
        exact .inr (.inl h2)

/-- What a result of `f` says about `g`. -/
def Goes (W : World) (f g : Fn) (b n : Nat) (hd tl : List Nat) (c' : Nat) (r' : List Nat) (σ : St) (m : Nat) : Res → Prop
  | .running c2 r2 τ => ∃ c2' r2', run W g m c' r' σ = .running c2' r2' τ ∧ GRel f b n hd tl c2 r2 c2' r2'
  | res => run W g m c' r' σ = res

/-- Every run of `f` is a run of `g`, unless the check fails on the way. -/
theorem Guard.forward (G : Guard f b n e hd tl i g) (ho : GOk f tl) (hp : ∀ t ∈ f.succs b, phisOf f t = []) (ht : ∀ σ, taken i σ ≠ none) :
    ∀ (k : Nat) {c c' : Nat} {r r' : List Nat} (σ : St), GRel f b n hd tl c r c' r' →
    (∃ m, k ≤ m ∧ Goes W f g b n hd tl c' r' σ m (run W f k c r σ)) ∨
    (∃ k' < k, ∃ m τ, Fails W f b tl i k' c r σ τ ∧ run W g m c' r' σ = .thrown τ) := by
  intro k
  induction k with
  | zero => intro c c' r r' σ hr; exact .inl ⟨0, Nat.le_refl _, c', r', rfl, hr⟩
  | succ k ih =>
    have main : ∀ {c c' : Nat} {r r' : List Nat} (σ : St), GRel f b n hd tl c r c' r' → ¬ (c' = b ∧ r' = [f.next + 1]) →
        (∃ m, k + 1 ≤ m ∧ Goes W f g b n hd tl c' r' σ m (run W f (k + 1) c r σ)) ∨
        (∃ k' < k + 1, ∃ m τ, Fails W f b tl i k' c r σ τ ∧ run W g m c' r' σ = .thrown τ) := by
      intro c c' r r' σ hr hne
      rcases G.step (W := W) ho hr hne σ with hs | ⟨hs, t, h1, h2⟩
      · have hrun : run W f (k + 1) c r σ = match IR.step W f c r σ with
          | .goto b' rest' σ' => run W f k b' rest' σ'
          | .done x => .done x σ
          | .thrown => .thrown σ
          | .stuck => .stuck := rfl
        generalize hs0 : IR.step W f c r σ = s at hs hrun
        generalize hs' : IR.step W g c' r' σ = s' at hs
        rw [hrun]
        cases hs with
        | goto hr' =>
          rename_i c1 r1 c1' r1' σ'
          rcases ih σ' hr' with ⟨m, h1, h2⟩ | ⟨k', hk, m, τ, h1, h2⟩
          · refine .inl ⟨m + 1, by omega, ?_⟩
            have hm : run W g (m + 1) c' r' σ = run W g m c1' r1' σ' := by simp only [run, hs']
            dsimp only
            revert h2
            unfold Goes
            cases run W f k c1 r1 σ' <;> simp only [hm] <;> exact fun h => h
          · refine .inr ⟨k' + 1, by omega, m + 1, τ, ⟨?_, h1.2⟩, ?_⟩
            · simp only [run, hs0]; exact h1.1
            · simp only [run, hs']; exact h2
        | done => exact .inl ⟨k + 1, Nat.le_refl _, by simp only [Goes, run, hs']⟩
        | thrown => exact .inl ⟨k + 1, Nat.le_refl _, by simp only [Goes, run, hs']⟩
        | stuck => exact .inl ⟨k + 1, Nat.le_refl _, by simp only [Goes, run, hs']⟩
      · exact absurd (hp t h1) h2
    intro c c' r r' σ hr
    by_cases hne : c' = b ∧ r' = [f.next + 1]
    · obtain ⟨rfl, rfl⟩ := hr.jump G.hbn hne.1 hne.2
      obtain ⟨rfl, rfl⟩ := hne
      have hj : ∀ m, run W g (m + 1) c' [f.next + 1] σ = match taken i σ with
          | some true => run W g m e [f.next] σ
          | some false => run W g m n r σ
          | none => .stuck := by
        intro m
        simp only [run, G.jump ho]
        cases taken i σ with
        | none => rfl
        | some v => cases v <;> rfl
      cases htk : taken i σ with
      | none => exact absurd htk (ht σ)
      | some v =>
        simp only [htk] at hj
        cases v with
        | true =>
          refine .inr ⟨0, by omega, 2, σ, ⟨rfl, htk⟩, ?_⟩
          rw [hj]; simp only [run, G.err]
        | false =>
          rcases main σ (.tail (fun x hx => hx) : GRel f c' n hd r c' r n r) (fun e => G.hbn e.1.symm) with ⟨m, h1, h2⟩ | ⟨k', hk, m, τ, h1, h2⟩
          · refine .inl ⟨m + 1, by omega, ?_⟩
            revert h2
            unfold Goes
            cases run W f (k + 1) c' r σ <;> simp only [hj m] <;> exact fun h => h
          · exact .inr ⟨k', hk, m + 1, τ, h1, by rw [hj]; exact h2⟩
    · exact main σ hr hne

/-- The start of both functions. -/
theorem Guard.start (G : Guard f b n e hd tl i g) (hs : Shape f) : GRel f b n hd tl f.entry (f.body f.entry) g.entry (g.body g.entry) := by
  rw [G.entry, G.body _ hs.entry]
  by_cases h : f.entry = b
  · rw [if_pos h, h, G.list]
    exact .head (fun x hx => hx)
  · rw [if_neg h]
    exact .other hs.entry h (fun x hx => hx)

/-- Instructions of `f` are reached in `g` only if they are in `f`. -/
theorem Guard.reaches (G : Guard f b n e hd tl i g) (ho : GOk f tl) {σ τ : St} {x : Nat} (hx : x < f.next) (h : Reaches W g σ x τ) :
    Reaches W f σ x τ := by
  obtain ⟨m, c', r', h⟩ := h
  have := G.backward (W := W) ho m σ (G.start ho.shape)
  unfold runFn at h
  rw [h] at this
  rcases this with ⟨k, c, r, h1, h2⟩ | ⟨_, h2, _⟩
  · generalize hr' : x :: r' = l at h2
    cases h2 with
    | other _ _ _ => exact ⟨k, _, r', by unfold runFn; rw [h1, ← hr']⟩
    | @head r0 _ =>
      cases r0 with
      | nil => simp at hr'; omega
      | cons y r0 =>
        simp at hr'
        exact ⟨k, _, r0 ++ tl, by unfold runFn; rw [h1, hr'.1]; rfl⟩
    | tail _ => exact ⟨k, _, r', by unfold runFn; rw [h1, ← hr']⟩
  · simp at h2; omega

end Verif.Guard
