import Verif.IR.Sim
import Verif.Spec.Preserve
/-!
# Simulation when instructions are left out or changed, with the history of blocks
-/
namespace Verif.IR
open Verif

/-- The instruction neither jumps nor ends the function. -/
def straight (o : Op) : Bool := !(o = .ja || o.condJmp || o = .ret || o = .throw)

/-- The instruction is executed by `exec`. -/
def plain (o : Op) : Bool := straight o && !(o = .phi)

/-- Control leaves a block in which the instructions `r` are left. -/
def Leaves (f : Fn) (b : Nat) (r : List Nat) : Prop :=
  r <:+ f.body b ∧ ∀ x, r.head? = some x → straight (f.insn x).op = false

/-- `g` is `f` without the instructions `D`, with other operands; `R` relates the states when the blocks of `h` have
been visited and the instructions `r` of the last one are left. -/
structure Skips (W : World) (f g : Fn) (D : Nat → Bool) (R : List Nat → List Nat → St → St → Prop) : Prop where
  body : ∀ b, g.body b = (f.body b).filter (fun x => !D x)
  entry : g.entry = f.entry
  succs : g.succs = f.succs
  phis : PhisFirst f
  op : ∀ b, ∀ x ∈ f.body b, D x = false →
    ((g.insn x).op = (f.insn x).op ∧ (g.insn x).bb1 = (f.insn x).bb1 ∧ (g.insn x).bb2 = (f.insn x).bb2) ∨
    (plain (f.insn x).op = true ∧ plain (g.insn x).op = true)
  runs : ∀ b h, Walk f (b :: h) → ∀ x r, x :: r <:+ f.body b → D x = false → ∀ σ σ' τ, R (b :: h) (x :: r) σ σ' → (f.insn x).op ≠ .phi →
    straight (f.insn x).op = true → exec W x (f.insn x) σ = some τ →
    ∃ τ', exec W x (g.insn x) σ' = some τ' ∧ R (b :: h) r τ τ'
  jumps : ∀ b h, Walk f (b :: h) → ∀ x r, x :: r <:+ f.body b → D x = false → ∀ σ σ' t, R (b :: h) (x :: r) σ σ' →
    (f.insn x).op.condJmp = true → taken (f.insn x) σ = some t → taken (g.insn x) σ' = some t
  rets : ∀ b h, Walk f (b :: h) → ∀ x r, x :: r <:+ f.body b → D x = false → ∀ σ σ' v y, R (b :: h) (x :: r) σ σ' →
    (f.insn x).op = .ret → (f.insn x).vals = [v] → eval σ v = some y →
    ∃ v', (g.insn x).vals = [v'] ∧ eval σ' v' = some y
  drop : ∀ b h, Walk f (b :: h) → ∀ x r, x :: r <:+ f.body b → D x = true → straight (f.insn x).op = true ∧
    ∀ σ σ' τ, R (b :: h) (x :: r) σ σ' → (f.insn x).op ≠ .phi → exec W x (f.insn x) σ = some τ → R (b :: h) r τ σ'
  enters : ∀ p h b, Walk f (p :: h) → Edge f p b → ∀ r σ σ' e, Leaves f p r → R (p :: h) r σ σ' → phiAssign f p σ (phisOf f b) = some e →
    ∃ e', phiAssign g p σ' ((phisOf f b).filter (fun x => !D x)) = some e' ∧
      R (b :: p :: h) (codeOf f b) { σ with env := e } { σ' with env := e' }

variable {W : World} {f g : Fn} {D : Nat → Bool} {R : List Nat → List Nat → St → St → Prop}

theorem filter_takeWhile {p q d : Nat → Bool} : ∀ {l : List Nat}, (∀ x ∈ l, d x = true → q x = p x) →
    (∀ x ∈ l.dropWhile p, p x = false) →
    (l.filter d).takeWhile q = (l.takeWhile p).filter d ∧ (l.filter d).dropWhile q = (l.dropWhile p).filter d
  | [], _, _ => ⟨rfl, rfl⟩
  | x :: xs, h, hd => by
    by_cases hp : p x = true
    · rw [List.takeWhile_cons_of_pos hp, List.dropWhile_cons_of_pos hp]
      rw [List.dropWhile_cons_of_pos hp] at hd
      have ih := filter_takeWhile (l := xs) (fun y hy => h y (by simp [hy])) hd
      by_cases hx : d x = true
      · have hq : q x = true := by rw [h x (by simp) hx, hp]
        rw [List.filter_cons_of_pos hx, List.filter_cons_of_pos hx, List.takeWhile_cons_of_pos hq, List.dropWhile_cons_of_pos hq,
          ih.1, ih.2]
        exact ⟨rfl, rfl⟩
      · rw [List.filter_cons_of_neg hx, List.filter_cons_of_neg hx]
        exact ih
    · rw [List.takeWhile_cons_of_neg hp, List.dropWhile_cons_of_neg hp]
      rw [List.dropWhile_cons_of_neg hp] at hd
      have hn : ∀ y ∈ (x :: xs).filter d, q y = false := fun y hy => by
        rw [List.mem_filter] at hy
        rw [h y hy.1 hy.2]; exact hd y hy.1
      cases he : (x :: xs).filter d with
      | nil => exact ⟨rfl, rfl⟩
      | cons y ys =>
        have : q y = false := hn y (by rw [he]; simp)
        rw [List.takeWhile_cons_of_neg (by simp [this]), List.dropWhile_cons_of_neg (by simp [this])]
        exact ⟨rfl, rfl⟩

theorem Skips.split (S : Skips W f g D R) (b : Nat) : phisOf g b = (phisOf f b).filter (fun x => !D x) ∧
    codeOf g b = (codeOf f b).filter (fun x => !D x) := by
  unfold phisOf codeOf
  rw [S.body b]
  refine filter_takeWhile (fun x hx hd => ?_) (fun x hx => ?_)
  · rcases S.op b x hx (by simpa using hd) with h | ⟨h1, h2⟩
    · rw [h.1]
    · simp only [plain, Bool.and_eq_true, Bool.not_eq_true', decide_eq_false_iff_not] at h1 h2
      rw [beq_false_of_ne h1.2, beq_false_of_ne h2.2]
  · have := S.phis b x hx
    simpa using this

theorem mem_codeOf {f : Fn} {b x : Nat} (h : x ∈ codeOf f b) : x ∈ f.body b := (List.dropWhile_suffix _).subset h

/-- Results with the history of the blocks that `R` needs. -/
def Ex (R : List Nat → List Nat → St → St → Prop) (σ σ' : St) : Prop := ∃ h r, R h r σ σ'

/-- What one step does, seen from `f`. -/
theorem Skips.enter_ok (S : Skips W f g D R) {p b : Nat} {h r : List Nat} (hw : Walk f (p :: h)) (he : Edge f p b) {σ σ' : St}
    (hl : Leaves f p r) (hr : R (p :: h) r σ σ') :
    enter f p b σ = .stuck ∨ ∃ τ τ', enter f p b σ = .goto b (codeOf f b) τ ∧
      enter g p b σ' = .goto b ((codeOf f b).filter (fun x => !D x)) τ' ∧ R (b :: p :: h) (codeOf f b) τ τ' := by
  unfold IR.enter
  rw [(S.split b).1, (S.split b).2]
  cases hp : phiAssign f p σ (phisOf f b) with
  | none => exact .inl rfl
  | some e =>
    obtain ⟨e', h1, h2⟩ := S.enters p h b hw he r σ σ' e hl hr hp
    rw [h1]
    exact .inr ⟨_, _, rfl, rfl, h2⟩

/-- Pairs of steps. -/
inductive Pair (f : Fn) (D : Nat → Bool) (R : List Nat → List Nat → St → St → Prop) : Step → Step → Prop
  | goto (b : Nat) (h rest : List Nat) (τ τ' : St) : Walk f (b :: h) → rest <:+ f.body b → R (b :: h) rest τ τ' →
      Pair f D R (.goto b rest τ) (.goto b (rest.filter (fun x => !D x)) τ')
  | done (x : BitVec 64) : Pair f D R (.done x) (.done x)
  | thrown : Pair f D R .thrown .thrown

theorem Skips.enter_pair (S : Skips W f g D R) {p b : Nat} {h r : List Nat} (hw : Walk f (p :: h)) (he : Edge f p b) {σ σ' : St}
    (hl : Leaves f p r) (hr : R (p :: h) r σ σ') : enter f p b σ = .stuck ∨ Pair f D R (enter f p b σ) (enter g p b σ') := by
  rcases S.enter_ok hw he hl hr with h1 | ⟨τ, τ', h1, h2, h3⟩
  · exact .inl h1
  · rw [h1, h2]
    exact .inr (.goto b (p :: h) _ _ _ (.step _ _ _ hw he) (List.dropWhile_suffix _) h3)

theorem step_plain {f : Fn} {b x : Nat} {rest : List Nat} {σ : St} (h : plain (f.insn x).op = true) :
    step W f b (x :: rest) σ = match exec W x (f.insn x) σ with | some τ => .goto b rest τ | none => .stuck := by
  simp only [plain, straight, Bool.and_eq_true, Bool.not_eq_true', Bool.or_eq_false_iff, decide_eq_false_iff_not] at h
  obtain ⟨⟨⟨⟨s1, s2⟩, s3⟩, s4⟩, s5⟩ := h
  simp only [step]
  rw [if_neg s1, if_neg (by simp [s2]), if_neg s3, if_neg s4, if_neg s5]
  rfl

/-- A kept instruction, or the end of the block. -/
theorem Skips.step_keep (S : Skips W f g D R) {b : Nat} {h rest : List Nat} (hw : Walk f (b :: h)) {σ σ' : St} (hr : R (b :: h) rest σ σ')
    (hb : rest <:+ f.body b) (hd : ∀ x, rest.head? = some x → D x = false) :
    step W f b rest σ = .stuck ∨ Pair f D R (step W f b rest σ) (step W g b (rest.filter (fun x => !D x)) σ') := by
  cases rest with
  | nil =>
    simp only [List.filter_nil, step, S.succs]
    cases hs : f.succs b with
    | nil => exact .inl rfl
    | cons t l =>
      cases l with
      | nil => exact S.enter_pair hw (.fall hs) ⟨hb, by simp⟩ hr
      | cons => exact .inl rfl
  | cons x rest =>
    have hx : D x = false := hd x rfl
    have hxb : x ∈ f.body b := hb.subset (by simp)
    rw [List.filter_cons_of_pos (by simp [hx])]
    rcases S.op b x hxb hx with ⟨o1, o2, o3⟩ | ⟨o1, o2⟩
    rotate_left
    · rw [step_plain o1, step_plain o2]
      have hs := o1
      simp only [plain, Bool.and_eq_true, Bool.not_eq_true', decide_eq_false_iff_not] at hs
      cases he : IR.exec W x (f.insn x) σ with
      | none => exact .inl rfl
      | some τ =>
        obtain ⟨τ', e1, e2⟩ := S.runs b h hw x rest hb hx σ σ' τ hr hs.2 hs.1 he
        rw [e1]
        exact .inr (.goto b h rest _ _ hw ((List.suffix_cons _ _).trans hb) e2)
    have hl : straight (f.insn x).op = false → Leaves f b (x :: rest) := fun h => ⟨hb, fun y hy => by cases hy; exact h⟩
    simp only [step, o1, o2, o3]
    by_cases h1 : (f.insn x).op = .ja
    · rw [if_pos h1, if_pos h1]; exact S.enter_pair hw (.ja x hxb h1 rfl) (hl (by simp [straight, h1])) hr
    rw [if_neg h1, if_neg h1]
    by_cases h2 : (f.insn x).op.condJmp = true
    · rw [if_pos h2, if_pos h2]
      cases ht : IR.taken (f.insn x) σ with
      | none => exact .inl rfl
      | some t =>
        rw [S.jumps b h hw x rest hb hx σ σ' t hr h2 ht]
        cases t with
        | true => exact S.enter_pair hw (.cond x hxb h2 (.inr rfl)) (hl (by simp [straight, h2])) hr
        | false => exact S.enter_pair hw (.cond x hxb h2 (.inl rfl)) (hl (by simp [straight, h2])) hr
    rw [if_neg h2, if_neg h2]
    by_cases h3 : (f.insn x).op = .ret
    · rw [if_pos h3, if_pos h3]
      rcases hv : (f.insn x).vals with _ | ⟨v, _ | ⟨_, _⟩⟩
      · exact .inl rfl
      · dsimp only
        cases he : eval σ v with
        | none => exact .inl rfl
        | some y =>
          obtain ⟨v', e1, e2⟩ := S.rets b h hw x rest hb hx σ σ' v y hr h3 hv he
          rw [e1]; dsimp only; rw [e2]; exact .inr (.done y)
      · exact .inl rfl
    rw [if_neg h3, if_neg h3]
    by_cases h4 : (f.insn x).op = .throw
    · rw [if_pos h4, if_pos h4]; exact .inr .thrown
    rw [if_neg h4, if_neg h4]
    by_cases h5 : (f.insn x).op = .phi
    · rw [if_pos h5]; exact .inl rfl
    rw [if_neg h5, if_neg h5]
    cases he : IR.exec W x (f.insn x) σ with
    | none => exact .inl rfl
    | some τ =>
      obtain ⟨τ', e1, e2⟩ := S.runs b h hw x rest hb hx σ σ' τ hr h5 (by simp [straight, h1, h2, h3, h4]) he
      rw [e1]
      exact .inr (.goto b h rest _ _ hw ((List.suffix_cons _ _).trans hb) e2)

/-- A dropped instruction. -/
theorem Skips.step_drop (S : Skips W f g D R) {b x : Nat} {h rest : List Nat} (hw : Walk f (b :: h)) {σ σ' : St} (hr : R (b :: h) (x :: rest) σ σ')
    (hx : x :: rest <:+ f.body b) (hd : D x = true) :
    step W f b (x :: rest) σ = .stuck ∨ ∃ τ, step W f b (x :: rest) σ = .goto b rest τ ∧ R (b :: h) rest τ σ' := by
  obtain ⟨hs, hk⟩ := S.drop b h hw x rest hx hd
  simp only [straight, Bool.not_eq_true', Bool.or_eq_false_iff, decide_eq_false_iff_not] at hs
  obtain ⟨⟨⟨s1, s2⟩, s3⟩, s4⟩ := hs
  simp only [step]
  rw [if_neg s1, if_neg (by simp [s2]), if_neg s3, if_neg s4]
  by_cases h5 : (f.insn x).op = .phi
  · rw [if_pos h5]; exact .inl rfl
  rw [if_neg h5]
  cases he : IR.exec W x (f.insn x) σ with
  | none => exact .inl rfl
  | some τ => exact .inr ⟨τ, rfl, hk σ σ' τ hr h5 he⟩

theorem Skips.forward (S : Skips W f g D R) : ∀ (n : Nat) (b : Nat) (h rest : List Nat) (σ σ' : St), Walk f (b :: h) →
    R (b :: h) rest σ σ' → rest <:+ f.body b →
    run W f n b rest σ = .stuck ∨ ∃ m, m ≤ n ∧ RelRes (Ex R) (run W f n b rest σ) (run W g m b (rest.filter (fun x => !D x)) σ')
  | 0, b, h, rest, σ, σ', hw, hr, hb => .inr ⟨0, Nat.le_refl _, .running _ _ _ _ _ _ ⟨_, _, hr⟩⟩
  | n + 1, b, h, rest, σ, σ', hw, hr, hb => by
    by_cases hd : ∀ x, rest.head? = some x → D x = false
    · have hs := S.step_keep hw hr hb hd
      simp only [run]
      generalize step W f b rest σ = s at hs
      rcases hs with hs | hs
      · subst hs; exact .inl rfl
      · generalize ht : step W g b (rest.filter fun x => !D x) σ' = t at hs
        cases hs with
        | goto b' h' rest' τ τ' w' hb' r' =>
          rcases S.forward n b' h' rest' τ τ' w' r' hb' with e | ⟨m, hm, e⟩
          · exact .inl e
          · refine .inr ⟨m + 1, by omega, ?_⟩
            simp only [run, ht]; exact e
        | done y =>
          refine .inr ⟨1, by omega, ?_⟩
          simp only [run, ht]; exact .done _ _ _ ⟨_, _, hr⟩
        | thrown =>
          refine .inr ⟨1, by omega, ?_⟩
          simp only [run, ht]; exact .thrown _ _ ⟨_, _, hr⟩
    · cases rest with
      | nil => exact absurd (fun x hx => by simp at hx) hd
      | cons x rest =>
        have hx : D x = true := by
          cases hx : D x with
          | true => rfl
          | false => exact absurd (fun y hy => by simp at hy; rw [← hy]; exact hx) hd
        rw [List.filter_cons_of_neg (by simp [hx])]
        simp only [run]
        rcases S.step_drop (rest := rest) hw hr hb hx with e | ⟨τ, e, r'⟩
        · rw [e]; exact .inl rfl
        · rw [e]
          rcases S.forward n b h rest τ σ' hw r' ((List.suffix_cons _ _).trans hb) with e | ⟨m, hm, e⟩
          · exact .inl e
          · exact .inr ⟨m, by omega, e⟩

/-- Where a run is, the relation holds with the blocks visited. -/
theorem Skips.reach (S : Skips W f g D R) : ∀ (n : Nat) (b : Nat) (h rest : List Nat) (σ σ' : St), Walk f (b :: h) →
    R (b :: h) rest σ σ' → rest <:+ f.body b → ∀ c r τ, run W f n b rest σ = .running c r τ →
    ∃ h' τ', Walk f (c :: h') ∧ R (c :: h') r τ τ' ∧ r <:+ f.body c
  | 0, b, h, rest, σ, σ', hw, hr, hb, c, r, τ, e => by
    simp only [run, Res.running.injEq] at e
    obtain ⟨rfl, rfl, rfl⟩ := e
    exact ⟨h, σ', hw, hr, hb⟩
  | n + 1, b, h, rest, σ, σ', hw, hr, hb, c, r, τ, e => by
    simp only [run] at e
    by_cases hd : ∀ x, rest.head? = some x → D x = false
    · have hs := S.step_keep hw hr hb hd
      generalize step W f b rest σ = s at hs e
      rcases hs with hs | hs
      · subst hs; cases e
      · generalize ht : step W g b (rest.filter fun x => !D x) σ' = t at hs
        cases hs with
        | goto b' h' rest' τ τ' w' hb' r' => exact S.reach n b' h' rest' _ τ' w' r' hb' c r _ e
        | done y => cases e
        | thrown => cases e
    · cases rest with
      | nil => exact absurd (fun x hx => by simp at hx) hd
      | cons x rest =>
        have hx : D x = true := by
          cases hx : D x with
          | true => rfl
          | false => exact absurd (fun y hy => by simp at hy; rw [← hy]; exact hx) hd
        rcases S.step_drop (rest := rest) hw hr hb hx with e' | ⟨τ', e', r'⟩
        · rw [e'] at e; cases e
        · rw [e'] at e
          exact S.reach n b h rest τ' σ' hw r' ((List.suffix_cons _ _).trans hb) c r τ e

theorem Skips.backward (S : Skips W f g D R) : ∀ (m : Nat) (b : Nat) (h rest : List Nat) (σ σ' : St), Walk f (b :: h) →
    R (b :: h) rest σ σ' → rest <:+ f.body b →
    ∃ n, run W f n b rest σ = .stuck ∨ (RelRes (Ex R) (run W f n b rest σ) (run W g m b (rest.filter (fun x => !D x)) σ') ∧ m ≤ n)
  | 0, b, h, rest, σ, σ', hw, hr, hb => ⟨0, .inr ⟨.running _ _ _ _ _ _ ⟨_, _, hr⟩, Nat.le_refl _⟩⟩
  | m + 1, b, h, [], σ, σ', hw, hr, hb => by
    have hs := S.step_keep (rest := []) hw hr hb (by simp)
    generalize ht : step W g b (([] : List Nat).filter fun x => !D x) σ' = t at hs
    generalize he : step W f b [] σ = s at hs
    rcases hs with hs | hs
    · exact ⟨1, .inl (by simp only [run, he, hs])⟩
    · cases hs with
      | goto b' h' rest' τ τ' w' hb' r' =>
        obtain ⟨n, e | e⟩ := S.backward m b' h' rest' τ τ' w' r' hb'
        · exact ⟨n + 1, .inl (by simp only [run, he]; exact e)⟩
        · exact ⟨n + 1, .inr ⟨by simp only [run, he, ht]; exact e.1, by omega⟩⟩
      | done y => exact ⟨m + 1, .inr ⟨by simp only [run, he, ht]; exact .done _ _ _ ⟨_, _, hr⟩, Nat.le_refl _⟩⟩
      | thrown => exact ⟨m + 1, .inr ⟨by simp only [run, he, ht]; exact .thrown _ _ ⟨_, _, hr⟩, Nat.le_refl _⟩⟩
  | m + 1, b, h, x :: rest, σ, σ', hw, hr, hb => by
    cases hx : D x with
    | true =>
      rw [List.filter_cons_of_neg (by simp [hx])]
      rcases S.step_drop (rest := rest) hw hr hb hx with e | ⟨τ, e, r'⟩
      · exact ⟨1, .inl (by simp only [run, e])⟩
      · obtain ⟨n, e' | e'⟩ := S.backward (m + 1) b h rest τ σ' hw r' ((List.suffix_cons _ _).trans hb)
        · exact ⟨n + 1, .inl (by simp only [run, e]; exact e')⟩
        · exact ⟨n + 1, .inr ⟨by rw [show run W f (n + 1) b (x :: rest) σ = run W f n b rest τ from by simp only [run, e]]; exact e'.1, by omega⟩⟩
    | false =>
      have hs := S.step_keep (rest := x :: rest) hw hr hb (fun y hy => by simp at hy; rw [← hy]; exact hx)
      generalize ht : step W g b ((x :: rest).filter fun x => !D x) σ' = t at hs
      generalize he : step W f b (x :: rest) σ = s at hs
      rcases hs with hs | hs
      · exact ⟨1, .inl (by simp only [run, he, hs])⟩
      · cases hs with
        | goto b' h' rest' τ τ' w' hb' r' =>
          obtain ⟨n, e | e⟩ := S.backward m b' h' rest' τ τ' w' r' hb'
          · exact ⟨n + 1, .inl (by simp only [run, he]; exact e)⟩
          · exact ⟨n + 1, .inr ⟨by simp only [run, he, ht]; exact e.1, by omega⟩⟩
        | done y => exact ⟨m + 1, .inr ⟨by simp only [run, he, ht]; exact .done _ _ _ ⟨_, _, hr⟩, Nat.le_refl _⟩⟩
        | thrown => exact ⟨m + 1, .inr ⟨by simp only [run, he, ht]; exact .thrown _ _ ⟨_, _, hr⟩, Nat.le_refl _⟩⟩
termination_by m _ _ rest => (m, rest.length)

/-- Where `g` is, `f` gets to. -/
theorem Skips.back (S : Skips W f g D R) : ∀ (m : Nat) (b : Nat) (h rest : List Nat) (σ σ' : St), Walk f (b :: h) →
    R (b :: h) rest σ σ' → rest <:+ f.body b → ∀ c z r τ', run W g m b (rest.filter (fun x => !D x)) σ' = .running c (z :: r) τ' →
    (∃ n, run W f n b rest σ = .stuck) ∨ ∃ n h' r' τ, run W f n b rest σ = .running c (z :: r') τ ∧ Walk f (c :: h') ∧ R (c :: h') (z :: r') τ τ' ∧
      z :: r' <:+ f.body c ∧ D z = false
  | 0, b, h, [], σ, σ', hw, hr, hb, c, z, r, τ', e => by simp [run] at e
  | m + 1, b, h, [], σ, σ', hw, hr, hb, c, z, r, τ', e => by
    have hs := S.step_keep (rest := []) hw hr hb (by simp)
    simp only [run] at e
    generalize ht : step W g b (([] : List Nat).filter fun x => !D x) σ' = t at hs e
    generalize he : step W f b [] σ = s at hs
    rcases hs with hs | hs
    · exact .inl ⟨1, by simp only [run, he, hs]⟩
    · cases hs with
      | goto b' h' rest' τ τ' w' hb' r' =>
        rcases S.back m b' h' rest' τ τ' w' r' hb' c z r _ e with ⟨n, e⟩ | ⟨n, h2, r2, τ2, e, e2⟩
        · exact .inl ⟨n + 1, by simp only [run, he]; exact e⟩
        · exact .inr ⟨n + 1, h2, r2, τ2, by simp only [run, he]; exact e, e2⟩
      | done y => cases e
      | thrown => cases e
  | m, b, h, x :: rest, σ, σ', hw, hr, hb, c, z, r, τ', e => by
    cases hx : D x with
    | true =>
      rw [List.filter_cons_of_neg (by simp [hx])] at e
      rcases S.step_drop (rest := rest) hw hr hb hx with e1 | ⟨τ, e1, r'⟩
      · exact .inl ⟨1, by simp only [run, e1]⟩
      · rcases S.back m b h rest τ σ' hw r' ((List.suffix_cons _ _).trans hb) c z r τ' e with ⟨n, e⟩ | ⟨n, h2, r2, τ2, e, e2⟩
        · exact .inl ⟨n + 1, by simp only [run, e1]; exact e⟩
        · exact .inr ⟨n + 1, h2, r2, τ2, by simp only [run, e1]; exact e, e2⟩
    | false =>
      cases m with
      | zero =>
        rw [List.filter_cons_of_pos (by simp [hx])] at e
        simp only [run, Res.running.injEq, List.cons.injEq] at e
        obtain ⟨rfl, ⟨rfl, -⟩, rfl⟩ := e
        exact .inr ⟨0, h, rest, σ, rfl, hw, hr, hb, hx⟩
      | succ m =>
        have hs := S.step_keep (rest := x :: rest) hw hr hb (fun y hy => by simp at hy; rw [← hy]; exact hx)
        simp only [run] at e
        generalize ht : step W g b ((x :: rest).filter fun x => !D x) σ' = t at hs e
        generalize he : step W f b (x :: rest) σ = s at hs
        rcases hs with hs | hs
        · exact .inl ⟨1, by simp only [run, he, hs]⟩
        · cases hs with
          | goto b' h' rest' τ τ' w' hb' r' =>
            rcases S.back m b' h' rest' τ τ' w' r' hb' c z r _ e with ⟨n, e⟩ | ⟨n, h2, r2, τ2, e, e2⟩
            · exact .inl ⟨n + 1, by simp only [run, he]; exact e⟩
            · exact .inr ⟨n + 1, h2, r2, τ2, by simp only [run, he]; exact e, e2⟩
          | done y => cases e
          | thrown => cases e
termination_by m _ _ rest => (m, rest.length)

theorem Skips.preserves (S : Skips W f g D R) (ho : ∀ h r σ σ', R h r σ σ' → SameObs σ σ') (σ : St) (h0 : R [f.entry] (f.body f.entry) σ σ) :
    Preserves W f g σ := by
  have hm : ∀ a b, RelRes (Ex R) a b → RelRes SameObs a b := fun a b => RelRes.mono fun σ τ ⟨h, r, hr⟩ => ho h r σ τ hr
  refine ⟨fun n => ?_, fun m => ?_⟩
  · unfold runFn
    rw [S.entry, S.body]
    rcases S.forward n f.entry [] (f.body f.entry) σ σ .entry h0 (List.suffix_refl _) with e | ⟨m, _, e⟩
    · exact .inl e
    · exact .inr ⟨m, hm _ _ e⟩
  · unfold runFn
    rw [S.entry, S.body]
    obtain ⟨n, e | e⟩ := S.backward m f.entry [] (f.body f.entry) σ σ .entry h0 (List.suffix_refl _)
    · exact ⟨n, .inl e⟩
    · exact ⟨n, .inr ⟨hm _ _ e.1, e.2⟩⟩

/-- What `g` gets to (other than a phi), `f` gets to with the same operands, or `f` is stuck somewhere. -/
def Mirrors (W : World) (f g : Fn) (σ : St) : Prop :=
  ∀ m b z r τ', runFn W g m σ = .running b (z :: r) τ' → (g.insn z).op ≠ .phi →
    (∃ n, runFn W f n σ = .stuck) ∨ ∃ n r' τ, runFn W f n σ = .running b (z :: r') τ ∧ evalAll τ (f.insn z).vals = evalAll τ' (g.insn z).vals

/-! ## Preservation is transitive -/

theorem Mirrors.trans {W : World} {f g k : Fn} {σ : St} (hp : Preserves W f g σ) (h1 : Mirrors W f g σ) (h2 : Mirrors W g k σ) (ho : ∀ z, (k.insn z).op = (g.insn z).op) : Mirrors W f k σ := by
  intro m b z r τ' e hz
  rcases h2 m b z r τ' e hz with ⟨n, e⟩ | ⟨n, r', τ, e, e2⟩
  · left
    obtain ⟨l, h | ⟨h, -⟩⟩ := hp.backward n
    · exact ⟨l, h⟩
    · rw [e] at h
      generalize hq : runFn W f l σ = q at h
      cases h
      exact ⟨l, hq⟩
  · rcases h1 n b z r' τ e (by rw [← ho]; exact hz) with h | ⟨l, r2, τ2, e3, e4⟩
    · exact .inl h
    · exact .inr ⟨l, r2, τ2, e3, e4.trans e2⟩

theorem Preserves.refl (W : World) (f : Fn) (σ : St) : Preserves W f f σ := by
  have : ∀ r : Res, RelRes SameObs r r := fun r => by
    cases r with
    | done x σ => exact .done _ _ _ ⟨rfl, rfl⟩
    | thrown σ => exact .thrown _ _ ⟨rfl, rfl⟩
    | running b r σ => exact .running _ _ _ _ _ _ ⟨rfl, rfl⟩
    | stuck => exact .stuck
  exact ⟨fun n => .inr ⟨n, this _⟩, fun m => ⟨m, .inr ⟨this _, Nat.le_refl _⟩⟩⟩

theorem RelRes.sameObs_trans {a b c : Res} (h1 : RelRes SameObs a b) (h2 : RelRes SameObs b c) : RelRes SameObs a c :=
  (h1.trans h2).mono fun _ _ ⟨_, p, q⟩ => ⟨q.1.trans p.1, q.2.trans p.2⟩

theorem RelRes.stuck_iff {Q : St → St → Prop} {a b : Res} (h : RelRes Q a b) : a = .stuck ↔ b = .stuck := by
  cases h <;> simp

theorem Preserves.trans {W : World} {f g k : Fn} {σ : St} (h1 : Preserves W f g σ) (h2 : Preserves W g k σ) : Preserves W f k σ := by
  refine ⟨fun n => ?_, fun m => ?_⟩
  · rcases h1.forward n with e | ⟨m, e⟩
    · exact .inl e
    · rcases h2.forward m with e' | ⟨l, e'⟩
      · exact .inl (e.stuck_iff.2 e')
      · exact .inr ⟨l, e.sameObs_trans e'⟩
  · obtain ⟨l, e | ⟨e, hl⟩⟩ := h2.backward m
    · obtain ⟨n, e' | ⟨e', _⟩⟩ := h1.backward l
      · exact ⟨n, .inl e'⟩
      · exact ⟨n, .inl (e'.stuck_iff.2 e)⟩
    · obtain ⟨n, e' | ⟨e', hn⟩⟩ := h1.backward l
      · exact ⟨n, .inl e'⟩
      · exact ⟨n, .inr ⟨e'.sameObs_trans e, by omega⟩⟩

/-- What the results are: if no run of `f` gets stuck, `f` and `g` return the same values with the same memory and calls. -/
theorem Preserves.result {W : World} {f g : Fn} {σ : St} (h : Preserves W f g σ) (hs : ∀ n, runFn W f n σ ≠ .stuck) (x : BitVec 64)
    (m : Bpf.Mem) (t : List Bpf.Event) :
    (∃ n τ, runFn W f n σ = .done x τ ∧ τ.mem = m ∧ τ.trace = t) ↔ ∃ n τ, runFn W g n σ = .done x τ ∧ τ.mem = m ∧ τ.trace = t := by
  constructor
  · rintro ⟨n, τ, e, e1, e2⟩
    rcases h.forward n with e' | ⟨l, e'⟩
    · exact absurd e' (hs n)
    · rw [e] at e'
      generalize hq : runFn W g l σ = q at e'
      cases e' with
      | done _ _ τ' ho => exact ⟨l, τ', hq, by rw [ho.1, e1], by rw [ho.2, e2]⟩
  · rintro ⟨n, τ, e, e1, e2⟩
    obtain ⟨l, e' | ⟨e', _⟩⟩ := h.backward n
    · exact absurd e' (hs l)
    · rw [e] at e'
      generalize hq : runFn W f l σ = q at e'
      cases e' with
      | done _ τ' _ ho => exact ⟨l, τ', hq, by rw [← ho.1, e1], by rw [← ho.2, e2]⟩

end Verif.IR
