import Verif.IR.Subst
import Verif.Spec.Ssa
/-!
# Replacing a phi by its only operand
-/
namespace Verif.IR
open Verif Verif.Edit

/-! ## Walks -/

theorem Walk.suffix {f : Fn} {c : Nat} {m2 : List Nat} : ∀ {m1 : List Nat}, Walk f (m1 ++ c :: m2) → Walk f (c :: m2)
  | [], h => h
  | [a], h => by cases h with | step _ _ _ h _ => exact h
  | a :: b :: m1, h => by
    cases h with
    | step _ _ _ h _ => exact Walk.suffix (m1 := b :: m1) h

theorem Walk.splice {f : Fn} {c : Nat} {m2 m3 : List Nat} (h3 : Walk f (c :: m3)) : ∀ {m1 : List Nat}, Walk f (m1 ++ c :: m2) → Walk f (m1 ++ c :: m3)
  | [], _ => h3
  | [a], h => by cases h with | step _ _ _ h e => exact .step _ _ _ h3 e
  | a :: b :: m1, h => by
    cases h with
    | step _ _ _ h e => exact .step _ _ _ (Walk.splice h3 (m1 := b :: m1) h) e

theorem Walk.mem {f : Fn} {c : Nat} {h : List Nat} (hw : Walk f h) (hc : c ∈ h) : ∃ m1 m2, h = m1 ++ c :: m2 ∧ c ∉ m1 ∧ Walk f (c :: m2) := by
  obtain ⟨m1, m2, e, hn⟩ := List.eq_append_cons_of_mem hc
  subst e
  exact ⟨m1, m2, rfl, hn, hw.suffix⟩

theorem Dom.trans {f : Fn} {a b c : Nat} (h1 : Dom f a b) (h2 : Dom f b c) : Dom f a c := by
  intro h hw
  obtain ⟨m1, m2, e, _, hw'⟩ := hw.mem (h2 h hw)
  rw [e]
  exact List.mem_append_right _ (h1 m2 hw')

/-- If `b` is on every way to `a` and they are different, some way to `b` avoids `a`. -/
theorem avoid {f : Fn} {a b : Nat} (hne : b ≠ a) (hd : ∀ m, Walk f (a :: m) → b ∈ m) :
    ∀ (n : Nat) (m : List Nat), m.length ≤ n → Walk f (b :: m) → ∃ m', Walk f (b :: m') ∧ a ∉ b :: m'
  | 0, m, hn, hw => by
    have : m = [] := List.length_eq_zero_iff.1 (by omega)
    subst this
    exact ⟨[], hw, by simpa using fun e => hne e.symm⟩
  | n + 1, m, hn, hw => by
    by_cases ha : a ∈ m
    · obtain ⟨m1, m2, e, _, hw'⟩ := hw.mem (c := a) (by simp [ha])
      obtain ⟨k1, k2, e', _, hw''⟩ := hw'.mem (c := b) (by simp [hd m2 hw'])
      have l1 := congrArg List.length e
      have l2 := congrArg List.length e'
      simp only [List.length_cons, List.length_append] at l1 l2
      have : m1 ≠ [] := by
        rintro rfl
        simp at e; exact hne e.1
      have := List.length_pos_iff.2 this
      exact avoid hne hd n k2 (by omega) hw''
    · exact ⟨m, hw, by simpa using ⟨fun e => hne e.symm, ha⟩⟩

/-! ## The replaced phi -/

/-- The phi `x` in block `bx`, all of whose operands are `v` or itself. -/
structure Triv (f : Fn) (x bx : Nat) (v : Val) : Prop where
  ok : Ok f
  ssa : Ssa f
  block : bx ∈ f.allBbs
  mem : x ∈ f.body bx
  op : (f.insn x).op = .phi
  only : ∀ o ∈ (f.insn x).phi, o.2 = v ∨ o.2 = .insn x
  ne : v ≠ .insn x

variable {W : World} {f g : Fn} {x bx : Nat} {v : Val}

theorem Triv.inBody (T : Triv f x bx v) : InBody f x := ⟨bx, T.block, T.mem⟩

theorem Triv.parent (T : Triv f x bx v) : f.parent x = bx := T.ok.tidy.parent bx T.block x T.mem

theorem Triv.entry (T : Triv f x bx v) : bx ≠ f.entry := fun e => T.ssa.entry x (by rw [← e]; exact T.mem) T.op

theorem Triv.before (T : Triv f x bx v) {y : Nat} (hv : v = .insn y) (hy : InBody f y) :
    ∀ (n : Nat) (m : List Nat), m.length ≤ n → Walk f (bx :: m) → f.parent y ∈ m
  | n, [], _, hw => by
    generalize hl : [bx] = l at hw
    cases hw with
    | entry => simp at hl; exact absurd hl T.entry
    | step => simp at hl
  | 0, p :: m, hn, hw => by simp at hn
  | n + 1, p :: m, hn, hw => by
    cases hw with
    | step _ _ _ hw he =>
      obtain ⟨w, hw1⟩ := T.ssa.phiAll bx x T.mem T.op p m hw he
      rcases T.only _ hw1 with h | h
      · dsimp only at h
        subst h
        rw [hv] at hw1
        exact T.ssa.phiUses bx x T.mem T.op p y hw1 hy m hw
      · dsimp only at h
        subst h
        have := T.ssa.phiUses bx x T.mem T.op p x hw1 T.inBody m hw
        rw [T.parent] at this
        obtain ⟨m1, m2, e, _, hw'⟩ := hw.mem this
        have l1 := congrArg List.length e
        simp only [List.length_cons, List.length_append] at l1 hn
        have := T.before hv hy n m2 (by omega) hw'
        rw [e]
        simp [this]

theorem Triv.ne_block (T : Triv f x bx v) {y : Nat} (hv : v = .insn y) (hy : InBody f y) (e : f.parent y = bx) :
    ∀ (n : Nat) (m : List Nat), m.length ≤ n → ¬ Walk f (bx :: m)
  | n, m, hn, hw => by
    have h1 := T.before hv hy m.length m (Nat.le_refl _) hw
    rw [e] at h1
    cases hw with
    | entry => cases h1
    | step a _ m' hw he =>
      obtain ⟨m1, m2, e', _, hw'⟩ := hw.mem h1
      have l1 := congrArg List.length e'
      simp only [List.length_cons, List.length_append] at l1 hn
      cases n with
      | zero => omega
      | succ n => exact T.ne_block hv hy e n m2 (by omega) hw'

/-- After the last visit of `bx` the block of `v` has not been visited. -/
def Fresh (f : Fn) (bx : Nat) (v : Val) (h : List Nat) : Prop :=
  ∃ l1 l2, h = l1 ++ bx :: l2 ∧ ∀ y, v = .insn y → InBody f y → f.parent y ∉ l1

theorem Triv.fresh (T : Triv f x bx v) {b : Nat} {h : List Nat} (hw : Walk f (b :: h)) (hd : Dom f bx b) : Fresh f bx v (b :: h) := by
  obtain ⟨l1, l2, e, hn, hw'⟩ := hw.mem (hd h hw)
  refine ⟨l1, l2, e, fun y hv hy hm => ?_⟩
  have hne : f.parent y ≠ bx := fun e => T.ne_block hv hy e l2.length l2 (Nat.le_refl _) hw'
  obtain ⟨k1, k2, e', _⟩ := List.eq_append_cons_of_mem hm
  have hw2 : Walk f (f.parent y :: (k2 ++ bx :: l2)) := by
    have : b :: h = k1 ++ f.parent y :: (k2 ++ bx :: l2) := by rw [e, e']; simp
    rw [this] at hw
    exact hw.suffix
  obtain ⟨m', h1, h2⟩ := avoid hne (fun m hm => T.before hv hy m.length m (Nat.le_refl _) hm) _ _ (Nat.le_refl _) hw2
  have h3 : Walk f (k1 ++ f.parent y :: m') := by
    have : b :: h = k1 ++ f.parent y :: (k2 ++ bx :: l2) := by rw [e, e']; simp
    rw [this] at hw
    exact Walk.splice h1 hw
  have hb : ∃ t, k1 ++ f.parent y :: m' = b :: t := by
    cases k1 with
    | nil =>
      have : b = f.parent y := by rw [e'] at e; simp at e; exact e.1
      exact ⟨m', by rw [this]; rfl⟩
    | cons c k1 =>
      have : b = c := by rw [e'] at e; simp at e; exact e.1
      exact ⟨k1 ++ f.parent y :: m', by rw [this]; rfl⟩
  obtain ⟨t, ht⟩ := hb
  rw [ht] at h3
  have := hd t h3
  rw [← ht] at this
  rcases List.mem_append.1 this with h | h
  · exact hn (by rw [e']; simp [h])
  · exact h2 h

/-- The relation of the states. -/
def PhiRel (f : Fn) (x bx : Nat) (v : Val) (h : List Nat) (σ σ' : St) : Prop :=
  Agree (fun y => y ≠ x) σ σ' ∧ (Fresh f bx v h → eval σ v = some (σ.env x))

theorem eval_sub (T : Triv f x bx v) {σ σ' : St} (ha : Agree (fun y => y ≠ x) σ σ') {w : Val}
    (hx : w = .insn x → eval σ v = some (σ.env x)) : eval σ' (sub x v w) = eval σ w := by
  have hne : ∀ w, w ≠ .insn x → eval σ' w = eval σ w := fun w hw => by
    cases w with
    | const => rfl
    | undef => rfl
    | insn y => simp only [eval]; rw [ha.env y (fun e => hw (by rw [e]))]
  unfold sub
  split
  · rename_i e
    rw [hne v T.ne, hx e, e]; rfl
  · rename_i e
    exact hne w e

theorem phiAssign_val {p : Nat} {σ : St} : ∀ {l : List Nat} {e : Nat → BitVec 64}, phiAssign f p σ l = some e →
    ∀ y, (y ∉ l → e y = σ.env y) ∧ (y ∈ l → phiVal (f.insn y) p σ = some (e y))
  | [], e, h, y => by cases h; simp
  | z :: l, e, h, y => by
    simp only [phiAssign, Option.bind_eq_bind, Option.bind_eq_some_iff] at h
    obtain ⟨w, hw, e0, h0, h⟩ := h
    cases h
    have ih := phiAssign_val h0 y
    by_cases hy : y = z
    · subst hy
      simp [hw]
    · simp only [List.mem_cons, hy, false_or, if_false]
      exact ih

theorem phiAssign_sub {p : Nat} {σ σ' : St} (ha : Agree (fun y => y ≠ x) σ σ') : ∀ {l : List Nat} {e : Nat → BitVec 64},
    (∀ z ∈ l, z ≠ x → phiVal (g.insn z) p σ' = phiVal (f.insn z) p σ) → phiAssign f p σ l = some e →
    ∃ e', phiAssign g p σ' (l.filter (fun z => !decide (z = x))) = some e' ∧ ∀ y, y ≠ x → e' y = e y
  | [], e, _, h => by cases h; exact ⟨_, rfl, fun y hy => ha.env y hy⟩
  | z :: l, e, hl, h => by
    simp only [phiAssign, Option.bind_eq_bind, Option.bind_eq_some_iff] at h
    obtain ⟨w, hw, e0, h0, h⟩ := h
    cases h
    obtain ⟨e', h1, h2⟩ := phiAssign_sub ha (fun y hy => hl y (by simp [hy])) h0
    by_cases hz : z = x
    · rw [List.filter_cons_of_neg (by simp [hz])]
      refine ⟨e', h1, fun y hy => ?_⟩
      have : y ≠ z := fun e => hy (e.trans hz)
      simp [this, h2 y hy]
    · rw [List.filter_cons_of_pos (by simp [hz])]
      refine ⟨fun y => if y = z then w else e' y, ?_, fun y hy => ?_⟩
      · simp only [phiAssign, hl z (by simp) hz, hw, h1, Option.bind_eq_bind, Option.bind_some]
      · dsimp only
        split
        · rfl
        · exact h2 y hy

theorem Triv.skips (T : Triv f x bx v) (hbody : ∀ b, g.body b = (f.body b).filter (fun z => !decide (z = x)))
    (hentry : g.entry = f.entry) (hsuccs : g.succs = f.succs)
    (hins : ∀ b, ∀ z ∈ f.body b, z ≠ x → g.insn z = mapOps (sub x v) (f.insn z)) :
    Skips W f g (fun z => decide (z = x)) (fun h _ => PhiRel f x bx v h) := by
  have hblk : ∀ b z, z ∈ f.body b → b ∈ f.allBbs := fun b z hz => Classical.byContradiction fun hn => by
    rw [T.ok.only b hn] at hz; cases hz
  have huse : ∀ b h, Walk f (b :: h) → ∀ z ∈ f.body b, (f.insn z).op ≠ .phi → ∀ σ σ', PhiRel f x bx v (b :: h) σ σ' →
      ∀ w, 0 < (operands (f.insn z)).count w → eval σ' (sub x v w) = eval σ w := by
    intro b h hw z hz hp σ σ' hr w hc
    refine eval_sub T hr.1 fun e => hr.2 (T.fresh hw ?_)
    subst e
    have := T.ssa.uses b z hz hp x T.inBody (by rw [refs_eq]; exact hc)
    rw [T.parent] at this; exact this
  have hsub : ∀ b h, Walk f (b :: h) → ∀ z ∈ f.body b, (f.insn z).op ≠ .phi → ∀ σ σ', PhiRel f x bx v (b :: h) σ σ' →
      SubIn (fun y => y ≠ x) (sub x v) (f.insn z) σ σ' := by
    intro b h hw z hz hp σ σ' hr
    have hu := huse b h hw z hz hp σ σ' hr
    refine ⟨fun w hwv => hu w ?_, fun hr => hu _ ?_, fun ho w hh => ?_⟩
    · rw [List.count_pos_iff]; unfold operands; simp [hwv]
    · rw [List.count_pos_iff]; unfold operands; simp [hr]
    · cases w with
      | const => exact ⟨rfl, fun y hy => by cases hy⟩
      | undef => exact ⟨rfl, fun y hy => by cases hy⟩
      | insn a =>
        have hne : a ≠ x := by
          rintro rfl
          have := T.ssa.vars b z hz ho a hh
          rw [T.op] at this; cases this
        refine ⟨?_, fun y hy => ?_⟩
        · unfold sub; rw [if_neg]; simpa using hne
        · injection hy with hy; rw [← hy]; exact hne
  have hkeep : ∀ b h, Walk f (b :: h) → ∀ z ∈ f.body b, z ≠ x → ∀ (σ τ : St), τ.env x = σ.env x → (∀ y, y ≠ z → τ.env y = σ.env y) →
      (Fresh f bx v (b :: h) → eval σ v = some (σ.env x)) → Fresh f bx v (b :: h) → eval τ v = some (τ.env x) := by
    intro b h hw z hz hne σ τ h1 h2 h3 h4
    have h5 := h3 h4
    rw [h1, ← h5]
    cases hv : v with
    | const => rfl
    | undef => rfl
    | insn y =>
      simp only [eval]
      rw [h2 y]
      rintro rfl
      obtain ⟨l1, l2, e, hn⟩ := h4
      have hb := hblk b y hz
      have hy : InBody f y := ⟨b, hb, hz⟩
      have hp : f.parent y = b := T.ok.tidy.parent b hb y hz
      have hn := hn y hv hy
      cases l1 with
      | nil =>
        have : b = bx := by simp at e; exact e.1
        rw [this] at hw hp
        exact T.ne_block hv hy hp _ h (Nat.le_refl _) hw
      | cons c l1 =>
        have : b = c := by simp at e; exact e.1
        exact hn (by rw [hp, this]; simp)
  refine ⟨hbody, hentry, hsuccs, T.ok.phis, ?_, ?_, ?_, ?_, ?_, ?_⟩
  · intro b z hz hd
    rw [hins b z hz (by simpa using hd)]; exact .inl ⟨rfl, rfl, rfl⟩
  · intro b h hw z r hz hd σ σ' τ hr hp _ he
    have hz := hz.subset (List.mem_cons_self ..)
    have hne : z ≠ x := by simpa using hd
    have := exec_map hr.1 W z (hsub b h hw z hz hp σ σ' hr)
    rw [he] at this
    rw [hins b z hz hne]
    generalize exec W z (mapOps (sub x v) (f.insn z)) σ' = q at this
    cases this with
    | some _ τ' ha =>
      exact ⟨τ', rfl, ha, hkeep b h hw z hz hne σ τ (exec_env he (fun e => hne e.symm)) (fun y hy => exec_env he hy) hr.2⟩
  · intro b h hw z r hz hd σ σ' t hr hc ht
    have hz := hz.subset (List.mem_cons_self ..)
    have hne : z ≠ x := by simpa using hd
    have hp : (f.insn z).op ≠ .phi := by intro e; rw [e] at hc; cases hc
    rw [hins b z hz hne, taken_map (hsub b h hw z hz hp σ σ' hr).vals, ht]
  · intro b h hw z r hz hd σ σ' w y hr hc hv he
    have hz := hz.subset (List.mem_cons_self ..)
    have hne : z ≠ x := by simpa using hd
    have hp : (f.insn z).op ≠ .phi := by intro e; rw [e] at hc; cases hc
    refine ⟨sub x v w, ?_, ?_⟩
    · rw [hins b z hz hne]; unfold mapOps; dsimp only; rw [hv]; rfl
    · rw [(hsub b h hw z hz hp σ σ' hr).vals w (by rw [hv]; simp), he]
  · intro b h hw z r hz hd
    have : z = x := by simpa using hd
    subst this
    exact ⟨by rw [T.op]; rfl, fun σ σ' τ hr hp => absurd T.op hp⟩
  · intro p h b hw hed _ σ σ' e _ hr hphi
    have hphis : ∀ z ∈ phisOf f b, z ∈ f.body b ∧ (f.insn z).op = .phi := fun z hz => by
      obtain ⟨h1, h2⟩ := takeWhile_mem _ _ z hz
      exact ⟨h1, by simpa using h2⟩
    have hdom : ∀ z ∈ phisOf f b, (p, .insn x) ∈ (f.insn z).phi → eval σ v = some (σ.env x) := fun z hz hm => by
      obtain ⟨h1, h2⟩ := hphis z hz
      have := T.ssa.phiUses b z h1 h2 p x hm T.inBody
      rw [T.parent] at this
      exact hr.2 (T.fresh hw this)
    obtain ⟨e', h1, h2⟩ := phiAssign_sub (g := g) hr.1 (fun z hz hne => by
      obtain ⟨hz1, hz2⟩ := hphis z hz
      rw [hins b z hz1 hne]
      exact phiVal_map hz2 (fun w hw' => eval_sub T hr.1 (fun e => hdom z hz (by rw [← e]; exact hw')))) hphi
    refine ⟨e', h1, ⟨h2, hr.1.var, hr.1.mem, hr.1.trace⟩, fun hf => ?_⟩
    -- the value of `v` does not change
    have hwb : Walk f (b :: p :: h) := .step _ _ _ hw hed
    have hvv : eval { σ with env := e } v = eval σ v := by
      cases hv : v with
      | const => rfl
      | undef => rfl
      | insn y =>
        simp only [eval]
        rw [(phiAssign_val hphi y).1]
        intro hm
        obtain ⟨hy1, hy2⟩ := hphis y hm
        have hb := hblk b y hy1
        have hy : InBody f y := ⟨b, hb, hy1⟩
        have hp : f.parent y = b := T.ok.tidy.parent b hb y hy1
        obtain ⟨l1, l2, e1, hn⟩ := hf
        have hn := hn y hv hy
        cases l1 with
        | nil =>
          have : b = bx := by simp at e1; exact e1.1
          rw [this] at hwb hp
          exact T.ne_block hv hy hp _ _ (Nat.le_refl _) hwb
        | cons c l1 =>
          have : b = c := by simp at e1; exact e1.1
          exact hn (by rw [hp, this]; simp)
    rw [hvv]
    show _ = some (e x)
    by_cases hb : b = bx
    · subst hb
      have hxm : x ∈ phisOf f b := by
        have := T.mem
        have hspl : f.body b = phisOf f b ++ codeOf f b := (List.takeWhile_append_dropWhile).symm
        rw [hspl, List.mem_append] at this
        rcases this with h | h
        · exact h
        · exact absurd T.op (T.ok.phis b x h)
      have hval := (phiAssign_val hphi x).2 hxm
      unfold phiVal at hval
      simp only [Option.bind_eq_bind, Option.bind_eq_some_iff] at hval
      obtain ⟨o, ho, hev⟩ := hval
      have h1 := List.find?_some ho
      have h2 := List.mem_of_find?_eq_some ho
      simp only [beq_iff_eq] at h1
      rcases T.only o h2 with h3 | h3
      · rw [← h3]; exact hev
      · rw [hdom x hxm (by rw [← h1, ← h3]; exact h2)]
        rw [h3] at hev; exact hev
    · have hx : x ∉ phisOf f b := fun hm => by
        obtain ⟨hy1, _⟩ := hphis x hm
        exact hb ((T.ok.tidy.parent b (hblk b x hy1) x hy1).symm.trans T.parent)
      rw [(phiAssign_val hphi x).1 hx]
      refine hr.2 ?_
      obtain ⟨l1, l2, e1, hn⟩ := hf
      cases l1 with
      | nil => simp at e1; exact absurd e1.1 hb
      | cons c l1 =>
        simp at e1
        refine ⟨l1, l2, by simpa using e1.2, fun y hv hy hm => hn y hv hy (by simp [hm])⟩

theorem Triv.preserves (T : Triv f x bx v) (hbody : ∀ b, g.body b = (f.body b).filter (fun z => !decide (z = x)))
    (hentry : g.entry = f.entry) (hsuccs : g.succs = f.succs)
    (hins : ∀ b, ∀ z ∈ f.body b, z ≠ x → g.insn z = mapOps (sub x v) (f.insn z)) (σ : St) : Preserves W f g σ := by
  refine (T.skips hbody hentry hsuccs hins).preserves (fun _ _ σ σ' hr => ⟨hr.1.mem, hr.1.trace⟩) σ ⟨⟨fun _ _ => rfl, fun _ _ => rfl, rfl, rfl⟩, ?_⟩
  rintro ⟨l1, l2, e, _⟩
  cases l1 with
  | nil => simp at e; exact absurd e.1.symm T.entry
  | cons c l1 => simp at e

theorem Triv.mirrors (T : Triv f x bx v) (hbody : ∀ b, g.body b = (f.body b).filter (fun z => !decide (z = x)))
    (hentry : g.entry = f.entry) (hsuccs : g.succs = f.succs)
    (hins : ∀ b, ∀ z ∈ f.body b, z ≠ x → g.insn z = mapOps (sub x v) (f.insn z)) (σ : St) : Mirrors W f g σ := by
  intro m b z r τ' e hz
  unfold runFn at e
  rw [hentry, hbody] at e
  rcases (T.skips (W := W) hbody hentry hsuccs hins).back m f.entry [] (f.body f.entry) σ σ .entry ⟨⟨fun _ _ => rfl, fun _ _ => rfl, rfl, rfl⟩, by
      rintro ⟨l1, l2, e, _⟩
      cases l1 with
      | nil => simp at e; exact absurd e.1.symm T.entry
      | cons c l1 => simp at e⟩ (List.suffix_refl _) b z r τ' e with h | ⟨n, h', r', τ, e1, hw, hr, hs, hd⟩
  · exact .inl h
  · have hzb : z ∈ f.body b := hs.subset (List.mem_cons_self ..)
    have hg := hins b z hzb (by simpa using hd)
    have hp : (f.insn z).op ≠ .phi := by rw [hg] at hz; exact hz
    refine .inr ⟨n, r', τ, e1, ?_⟩
    rw [hg]
    refine (evalAll_map fun w hwv => ?_).symm
    refine eval_sub T hr.1 fun e => hr.2 (T.fresh hw ?_)
    subst e
    have := T.ssa.uses b z hzb hp x T.inBody (by rw [refs_eq, List.count_pos_iff]; unfold operands; simp [hwv])
    rw [T.parent] at this; exact this

end Verif.IR
