import Verif.Cg.LowerSim
import Verif.Loc.Recolor
/-!
# Simulation of a function by one with additional instructions

`g` is `f` with additional instructions that only write to the new places `New`.  What is to be shown about the instructions of `g` is stated for
executions from one state; `P` holds before the rest of a block, `E` when a block is left.
-/
namespace Verif.Cg
open Verif Verif.IR Verif.Edit Verif.Loc

/-- The states differ in the places `New` only. -/
structure Off (New : Nat → Prop) (τ τ' : Loc.St) : Prop where
  cell : ∀ q, ¬ New q → τ'.cell q = τ.cell q
  mem : τ'.mem = τ.mem
  trace : τ'.trace = τ.trace

theorem Off.rfl {New : Nat → Prop} {τ : Loc.St} : Off New τ τ := ⟨fun _ _ => Eq.refl _, Eq.refl _, Eq.refl _⟩

theorem Off.trans {New : Nat → Prop} {a b c : Loc.St} (h : Off New a b) (h' : Off New b c) : Off New a c :=
  ⟨fun q hq => (h'.cell q hq).trans (h.cell q hq), h'.mem.trans h.mem, h'.trace.trans h.trace⟩

theorem Off.set {New : Nat → Prop} {τ : Loc.St} {q : Nat} {v : BitVec 64} (h : New q) : Off New τ (τ.set q v) :=
  ⟨fun r hr => by simp only [Loc.St.set]; rw [if_neg]; rintro rfl; exact hr h, Eq.refl _, Eq.refl _⟩

/-- The execution gets from one point to another. -/
def Leads (W : World) (g : Fn) (k : Nat → Nat) (b : Nat) (r : List Nat) (τ : Loc.St) (c : Nat) (r' : List Nat) (τ' : Loc.St) : Prop :=
  ∃ j, ∀ n, Loc.run W g k (j + n) b r τ = Loc.run W g k n c r' τ'

theorem Leads.rfl {W : World} {g : Fn} {k : Nat → Nat} {b : Nat} {r : List Nat} {τ : Loc.St} : Leads W g k b r τ b r τ := ⟨0, fun n => by rw [Nat.zero_add]⟩

theorem Leads.trans {W : World} {g : Fn} {k : Nat → Nat} {b c d : Nat} {r s t : List Nat} {τ τ' τ'' : Loc.St} (h : Leads W g k b r τ c s τ')
    (h' : Leads W g k c s τ' d t τ'') : Leads W g k b r τ d t τ'' := by
  obtain ⟨i, hi⟩ := h
  obtain ⟨j, hj⟩ := h'
  exact ⟨i + j, fun n => by rw [Nat.add_assoc, hi, hj]⟩

theorem Leads.one {W : World} {g : Fn} {k : Nat → Nat} {b c : Nat} {r s : List Nat} {τ τ' : Loc.St} (h : Loc.step W g k b r τ = .goto c s τ') :
    Leads W g k b r τ c s τ' := ⟨1, fun n => by rw [Nat.add_comm, Loc.run, h]⟩

/-- In at least one step. -/
def Leads1 (W : World) (g : Fn) (k : Nat → Nat) (b : Nat) (r : List Nat) (τ : Loc.St) (c : Nat) (r' : List Nat) (τ' : Loc.St) : Prop :=
  ∃ j, ∀ n, Loc.run W g k (j + 1 + n) b r τ = Loc.run W g k n c r' τ'

theorem Leads1.mid {W : World} {g : Fn} {k : Nat → Nat} {b c d e : Nat} {r s t u : List Nat} {τ τ' τ'' τ3 : Loc.St} (h : Leads W g k b r τ c s τ')
    (h' : Loc.step W g k c s τ' = .goto d t τ'') (h2 : Leads W g k d t τ'' e u τ3) : Leads1 W g k b r τ e u τ3 := by
  obtain ⟨i, hi⟩ := h
  obtain ⟨j, hj⟩ := h2
  exact ⟨i + j, fun n => by rw [show i + j + 1 + n = i + ((j + n) + 1) by omega, hi, Loc.run, h']; exact hj n⟩

theorem Leads.plain {W : World} {g : Fn} {k : Nat → Nat} {b x : Nat} {r : List Nat} {τ τ' : Loc.St} (hc : Loc.control (g.insn x).op = false)
    (h : Loc.exec W k x (g.insn x) τ = some τ') : Leads W g k b (x :: r) τ b r τ' :=
  .one (by rw [Loc.step_plain hc, h])

/-- Instructions with the same targets whose operands have the same values. -/
structure Alike (i j : Insn) (σ σ' : IR.St) : Prop where
  op : j.op = i.op
  aluOp : j.aluOp = i.aluOp
  bb1 : j.bb1 = i.bb1
  bb2 : j.bb2 = i.bb2
  vals : j.vals.map (IR.eval σ') = i.vals.map (IR.eval σ)

theorem Alike.mapOps {i j : Insn} {σ σ' : IR.St} {s : Val → Val} (h : j = mapOps s i) (hv : ∀ w ∈ i.vals, IR.eval σ' (s w) = IR.eval σ w) : Alike i j σ σ' := by
  subst h
  refine ⟨rfl, rfl, rfl, rfl, ?_⟩
  show (i.vals.map s).map _ = _
  rw [List.map_map]
  exact List.map_congr_left hv

theorem Alike.taken {i j : Insn} {σ σ' : IR.St} (h : Alike i j σ σ') : IR.taken j σ' = IR.taken i σ := by
  have hv := h.vals
  unfold IR.taken
  rw [h.op, h.aluOp]
  rcases ei : i.vals with _ | ⟨a, _ | ⟨b, _ | ⟨c, r⟩⟩⟩ <;> rcases ej : j.vals with _ | ⟨a', _ | ⟨b', _ | ⟨c', r'⟩⟩⟩ <;> rw [ei, ej] at hv <;> simp at hv ⊢
  rw [hv.1, hv.2]

structure Feed (W : World) (f g : Fn) (R : List Nat) (l k : Nat → Nat) (New : Nat → Prop) (P : Nat → List Nat → Loc.St → Prop) (E : Nat → Loc.St → Prop)
    (H N M T : Nat → List Nat) : Prop where
  entry : g.entry = f.entry
  succs : g.succs = f.succs
  phis : ∀ b ∈ R, phisOf g b = phisOf f b
  code : ∀ b ∈ R, codeOf g b = H b ++ (ex N M (codeOf f b) ++ T b)
  place : ∀ b ∈ R, ∀ x ∈ phisOf f b, k x = l x
  reads : ∀ b ∈ R, ∀ x ∈ codeOf f b, ∀ q ∈ Loc.reads l (f.insn x), ¬ New q
  phiR : ∀ b ∈ R, ∀ x ∈ phisOf f b, ∀ o ∈ (f.insn x).phi, ∀ q ∈ Loc.place l o.2, ¬ New q
  plain : ∀ b ∈ R, ∀ pre x rest, codeOf f b = pre ++ x :: rest → Loc.control (f.insn x).op = false → ∀ τ τ1 tail, P b (x :: rest) τ →
    Loc.exec W l x (f.insn x) τ = some τ1 → ∃ τ2, Leads1 W g k b (N x ++ x :: (M x ++ tail)) τ b tail τ2 ∧ Off New τ1 τ2 ∧ P b rest τ2
  ctrl : ∀ b ∈ R, ∀ pre x, codeOf f b = pre ++ [x] → Loc.control (f.insn x).op = true → (f.insn x).op ≠ .phi → ∀ τ tail, P b [x] τ →
    ∃ τ2, Leads W g k b (N x ++ x :: tail) τ b (x :: tail) τ2 ∧ Off New τ τ2 ∧ E b τ2 ∧
      Alike (f.insn x) (g.insn x) (view l τ2) (view k τ2)
  fall : ∀ b ∈ R, ∀ τ, P b [] τ → ∃ τ2, Leads W g k b (T b) τ b [] τ2 ∧ Off New τ τ2 ∧ E b τ2
  phiv : ∀ b ∈ R, ∀ t ∈ f.succs b, ∀ τ, E b τ → ∀ x ∈ phisOf f t, phiVal (g.insn x) b (view k τ) = phiVal (f.insn x) b (view l τ)
  heads : ∀ b ∈ R, ∀ t ∈ f.succs b, ∀ τ e tail, E b τ → Loc.phiAssign f l b τ (phisOf f t) τ.cell = some e →
    ∃ τ2, Leads W g k t (H t ++ tail) { τ with cell := e } t tail τ2 ∧ Off New { τ with cell := e } τ2 ∧ P t (codeOf f t) τ2

/-- Instructions that do not touch the new places do the same in states that differ there. -/
theorem exec_off {W : World} {l : Nat → Nat} {New : Nat → Prop} {x : Nat} {i : Insn} {τ τ' τ1 : Loc.St} (hc : Loc.control i.op = false)
    (hr : ∀ q ∈ Loc.reads l i, ¬ New q) (h : Off New τ τ') (he : Loc.exec W l x i τ = some τ1) :
    ∃ τ1', Loc.exec W l x i τ' = some τ1' ∧ Off New τ1 τ1' := by
  have hs : Sub (fun _ => True) id l l id := ⟨fun _ _ _ _ => Eq.refl _, Eq.refl _, fun y _ => ⟨y, Eq.refl _, Eq.refl _⟩⟩
  rcases exec_two (W := W) hs (x := x) (i := i) (τ := τ) (τ' := τ') (fun _ _ _ _ => trivial) hc (Eq.refl _) (fun _ _ => Eq.refl _) h.mem h.trace
    (fun q hq => h.cell q (hr q hq)) (fun _ _ _ => Eq.refl _) with ⟨h1, _⟩ | ⟨τa, τb, h1, h2, h3⟩
  · rw [h1] at he; cases he
  · rw [h1] at he
    cases he
    rw [Loc.mapOps_id] at h2
    refine ⟨τb, h2, ⟨fun q hq => ?_, h3.mem, h3.trace⟩⟩
    by_cases hm : q ∈ Loc.writes l x i
    · exact h3.new q hm
    · rw [h3.old q hm]
      have := h3.old' q (by simpa using hm)
      rw [this]
      exact h.cell q hq

theorem eval_off {l : Nat → Nat} {New : Nat → Prop} {τ τ' : Loc.St} (h : Off New τ τ') {v : Val} (hv : ∀ q ∈ Loc.place l v, ¬ New q) :
    IR.eval (view l τ') v = IR.eval (view l τ) v := by
  cases v with
  | insn y => exact congrArg some (h.cell (l y) (hv _ (by simp [Loc.place])))
  | const => rfl
  | undef => rfl

theorem phiVal_off {l : Nat → Nat} {New : Nat → Prop} {τ τ' : Loc.St} (h : Off New τ τ') {i : Insn} {b : Nat}
    (hv : ∀ o ∈ i.phi, ∀ q ∈ Loc.place l o.2, ¬ New q) : phiVal i b (view l τ') = phiVal i b (view l τ) := by
  unfold phiVal
  cases e : i.phi.find? (fun o => o.1 == b) with
  | none => rfl
  | some o => exact eval_off h (hv o (List.mem_of_find?_eq_some e))

/-- Phis with the same values lead to the same contents. -/
theorem phiAssign_off {f g : Fn} {l k : Nat → Nat} {New : Nat → Prop} {b : Nat} {τ τ' : Loc.St} : ∀ {xs : List Nat} {e e' e1 : Nat → BitVec 64},
    (∀ x ∈ xs, k x = l x) → (∀ x ∈ xs, phiVal (g.insn x) b (view k τ') = phiVal (f.insn x) b (view l τ)) → (∀ q, ¬ New q → e' q = e q) →
    Loc.phiAssign f l b τ xs e = some e1 → ∃ e1', Loc.phiAssign g k b τ' xs e' = some e1' ∧ ∀ q, ¬ New q → e1' q = e1 q
  | [], e, e', e1, _, _, he, h => by cases h; exact ⟨e', rfl, he⟩
  | x :: xs, e, e', e1, hk, hv, he, h => by
    simp only [Loc.phiAssign, Option.bind_eq_bind, Option.bind_eq_some_iff] at h
    obtain ⟨v, h1, h⟩ := h
    have h2 := hv x List.mem_cons_self
    rw [h1] at h2
    obtain ⟨e1', h3, h4⟩ := phiAssign_off (g := g) (k := k) (τ' := τ') (e' := fun q => if q = k x then v else e' q) (fun y hy => hk y (List.mem_cons_of_mem _ hy)) (fun y hy => hv y (List.mem_cons_of_mem _ hy))
      (fun q hq => by rw [hk x List.mem_cons_self, he q hq]) h
    refine ⟨e1', ?_, h4⟩
    simp only [Loc.phiAssign, Option.bind_eq_bind, h2, Option.bind_some]
    exact h3

/-- Equal phi assignments of both functions from one state. -/
theorem phiAssign_same {f g : Fn} {l k : Nat → Nat} {b : Nat} {τ : Loc.St} {xs : List Nat} {e : Nat → BitVec 64}
    (hk : ∀ x ∈ xs, k x = l x) (hv : ∀ x ∈ xs, phiVal (g.insn x) b (view k τ) = phiVal (f.insn x) b (view l τ)) :
    Loc.phiAssign g k b τ xs e = Loc.phiAssign f l b τ xs e := by
  induction xs generalizing e with
  | nil => rfl
  | cons x xs ih =>
    simp only [Loc.phiAssign, hv x List.mem_cons_self, hk x List.mem_cons_self]
    congr 1
    funext v
    exact ih (fun y hy => hk y (List.mem_cons_of_mem _ hy)) (fun y hy => hv y (List.mem_cons_of_mem _ hy))

variable {W : World} {f g : Fn} {R : List Nat} {l k : Nat → Nat} {New : Nat → Prop} {P : Nat → List Nat → Loc.St → Prop} {E : Nat → Loc.St → Prop}
  {H N M T : Nat → List Nat}

theorem feed_enter (hf : Flow f R) (h : Feed W f g R l k New P E H N M T) {b t : Nat} (hb : b ∈ R) (ht : t ∈ f.succs b) {τ τ' τ1 : Loc.St} {c : Nat} {r : List Nat}
    (ho : Off New τ τ') (hE : E b τ') (he : Loc.enter f l b t τ = .goto c r τ1) :
    c = t ∧ r = codeOf f t ∧ ∃ τ2 τ3, Loc.enter g k b t τ' = .goto t (codeOf g t) τ2 ∧ Leads W g k t (codeOf g t) τ2 t (ex N M (codeOf f t) ++ T t) τ3 ∧
      Off New τ1 τ3 ∧ P t (codeOf f t) τ3 := by
  have htR := hf.succs b hb t ht
  unfold Loc.enter at he
  cases e : Loc.phiAssign f l b τ (phisOf f t) τ.cell with
  | none => rw [e] at he; cases he
  | some e1 =>
    rw [e] at he
    cases he
    refine ⟨rfl, rfl, ?_⟩
    obtain ⟨e2, h1, h2⟩ := phiAssign_off (f := f) (g := f) (l := l) (k := l) (New := New) (τ' := τ') (e' := τ'.cell) (fun _ _ => rfl)
      (fun x hx => phiVal_off ho (h.phiR t htR x hx)) ho.cell e
    have h3 := phiAssign_same (f := f) (g := g) (l := l) (k := k) (b := b) (τ := τ') (xs := phisOf f t) (e := τ'.cell) (h.place t htR) (h.phiv b hb t ht τ' hE)
    obtain ⟨τ3, h4, h5, h6⟩ := h.heads b hb t ht τ' e2 (ex N M (codeOf f t) ++ T t) hE h1
    refine ⟨{ τ' with cell := e2 }, τ3, ?_, ?_, ?_, h6⟩
    · unfold Loc.enter
      rw [h.phis t htR, h3, h1]
    · rw [h.code t htR]; exact h4
    · exact Off.trans (b := { τ' with cell := e2 }) ⟨h2, ho.mem, ho.trace⟩ h5

theorem feed_sim (hf : Flow f R) (h : Feed W f g R l k New P E H N M T) : ∀ (n : Nat) {b : Nat} {rest : List Nat} {τ τ' : Loc.St}, b ∈ R → rest <:+ codeOf f b →
    Off New τ τ' → P b rest τ' →
    Loc.run W f l n b rest τ = .stuck ∨ ∃ m, n ≤ m ∧ Loc.SameOut (Loc.run W f l n b rest τ) (Loc.run W g k m b (ex N M rest ++ T b) τ')
  | 0, b, rest, τ, τ', _, _, ho, _ => .inr ⟨0, Nat.le_refl _, .running _ _ _ _ _ _ ho.mem ho.trace⟩
  | n + 1, b, rest, τ, τ', hb, hs, ho, hP => by
    -- entering a block after the rest has been executed
    have key : ∀ (t : Nat) (r0 : List Nat) (τ2 : Loc.St), t ∈ f.succs b → Loc.step W f l b rest τ = Loc.enter f l b t τ →
        Leads W g k b (ex N M rest ++ T b) τ' b r0 τ2 → Loc.step W g k b r0 τ2 = Loc.enter g k b t τ2 → Off New τ τ2 → E b τ2 →
        Loc.run W f l (n + 1) b rest τ = .stuck ∨ ∃ m, n + 1 ≤ m ∧ Loc.SameOut (Loc.run W f l (n + 1) b rest τ) (Loc.run W g k m b (ex N M rest ++ T b) τ') := by
      intro t r0 τ2 ht e1 hl e2 ho2 hE
      rw [Loc.run]
      cases hst : Loc.enter f l b t τ with
      | stuck => rw [e1, hst]; exact .inl rfl
      | done y => unfold Loc.enter at hst; split at hst <;> cases hst
      | thrown => unfold Loc.enter at hst; split at hst <;> cases hst
      | goto c r τ1 =>
        rw [e1, hst]
        dsimp only
        obtain ⟨rfl, rfl, τ3, τ4, h1, h2, h3, h4⟩ := feed_enter hf h hb ht ho2 hE hst
        rcases feed_sim hf h n (hf.succs b hb _ ht) (List.suffix_refl _) h3 h4 with h5 | ⟨m, h5, h6⟩
        · exact .inl h5
        · obtain ⟨j1, hj1⟩ := hl
          obtain ⟨j2, hj2⟩ := h2
          refine .inr ⟨j1 + (1 + (j2 + m)), by omega, ?_⟩
          rw [hj1, Nat.add_comm 1, Loc.run, e2, h1]
          dsimp only
          rw [hj2]
          exact h6
    cases rest with
    | nil =>
      obtain ⟨τ2, h1, h2, h3⟩ := h.fall b hb τ' hP
      rcases e : f.succs b with _ | ⟨t, _ | ⟨_, _⟩⟩
      · left; rw [Loc.run, Loc.step, e]
      · refine key t [] τ2 (by rw [e]; simp) (by rw [Loc.step, e]) ?_ (by rw [Loc.step, h.succs, e]) (ho.trans h2) h3
        simpa [ex] using h1
      · left; rw [Loc.run, Loc.step, e]
    | cons x rest =>
      obtain ⟨pre, epre⟩ := hs
      have hxc : x ∈ codeOf f b := by rw [← epre]; simp
      have hxb : x ∈ f.body b := by rw [← phisOf_append f b]; exact List.mem_append_right _ hxc
      by_cases hc : Loc.control (f.insn x).op = true
      · by_cases hp : (f.insn x).op = .phi
        · left; rw [Loc.run, Loc.step_phi hp]
        have hrest : rest = [] := hf.last b hb (phisOf f b ++ pre) x rest (by rw [← phisOf_append f b, ← epre]; simp) hc hp
        subst hrest
        obtain ⟨τ2, h1, h2, h3, h4⟩ := h.ctrl b hb pre x epre.symm hc hp τ' (M x ++ T b) hP
        have hl : Leads W g k b (ex N M [x] ++ T b) τ' b (x :: (M x ++ T b)) τ2 := by
          have : ex N M [x] ++ T b = N x ++ x :: (M x ++ T b) := by simp [ex]
          rw [this]; exact h1
        have ho2 := ho.trans h2
        have hop := h4.op
        have hev : Alike (f.insn x) (g.insn x) (view l τ) (view k τ2) := by
          refine ⟨h4.op, h4.aluOp, h4.bb1, h4.bb2, h4.vals.trans (List.map_congr_left (fun w hw => ?_))⟩
          refine eval_off ho2 (fun q hq => h.reads b hb x hxc q ?_)
          rw [reads_plain hc]
          exact List.mem_flatMap.2 ⟨w, hw, hq⟩
        rcases control_cases hc with h6 | h6 | h6 | h6 | h6
        · refine key _ _ τ2 (hf.ja b hb x hxb h6) (Loc.step_ja h6) hl ?_ ho2 h3
          rw [Loc.step_ja (by rw [hop]; exact h6), h4.bb1]
        · have et : taken (g.insn x) (view k τ2) = taken (f.insn x) (view l τ) := hev.taken
          obtain ⟨s1, s2⟩ := hf.cond b hb x hxb h6
          have eg := Loc.step_cond (W := W) (f := g) (l := k) (b := b) (x := x) (r := M x ++ T b) (τ := τ2) (by rw [hop]; exact h6)
          have ef := Loc.step_cond (W := W) (f := f) (l := l) (b := b) (x := x) (r := []) (τ := τ) h6
          rw [et] at eg
          cases e : taken (f.insn x) (view l τ) with
          | none => left; rw [Loc.run, ef, e]
          | some y =>
            rw [e] at ef eg
            cases y
            · refine key _ _ τ2 s1 ef hl ?_ ho2 h3
              rw [eg, h4.bb1]
            · refine key _ _ τ2 s2 ef hl ?_ ho2 h3
              rw [eg, h4.bb2]
        · have ef := Loc.step_ret (W := W) (f := f) (l := l) (b := b) (x := x) (r := []) (τ := τ) h6
          have eg := Loc.step_ret (W := W) (f := g) (l := k) (b := b) (x := x) (r := M x ++ T b) (τ := τ2) (by rw [hop]; exact h6)
          rw [Loc.run, ef]
          rcases ev : (f.insn x).vals with _ | ⟨v, _ | ⟨_, _⟩⟩
          · exact .inl rfl
          · have e0 := hev.vals
            rw [ev] at e0
            rcases e2 : (g.insn x).vals with _ | ⟨v', _ | ⟨_, _⟩⟩ <;> rw [e2] at e0 <;> simp at e0
            have e1 := e0
            rw [e2] at eg
            simp only [e1] at eg
            dsimp only
            cases e3 : IR.eval (view l τ) v with
            | none => exact .inl rfl
            | some y =>
              rw [e3] at eg
              obtain ⟨j, hj⟩ := hl
              refine .inr ⟨j + (n + 1), by omega, ?_⟩
              rw [hj, Loc.run, eg]
              exact .done _ _ _ ho2.mem ho2.trace
          · exact .inl rfl
        · obtain ⟨j, hj⟩ := hl
          refine .inr ⟨j + (n + 1), by omega, ?_⟩
          rw [hj, Loc.run, Loc.run, Loc.step_throw h6, Loc.step_throw (by rw [hop]; exact h6)]
          exact .thrown _ _ ho2.mem ho2.trace
        · exact absurd h6 hp
      · have hc : Loc.control (f.insn x).op = false := by simpa using hc
        rw [Loc.run, Loc.step_plain hc]
        cases he : Loc.exec W l x (f.insn x) τ with
        | none => exact .inl rfl
        | some τ1 =>
          dsimp only
          obtain ⟨τ1', h1, h2⟩ := exec_off hc (h.reads b hb x hxc) ho he
          obtain ⟨τ2, ⟨j, hj⟩, h4, h5⟩ := h.plain b hb pre x rest epre.symm hc τ' τ1' (ex N M rest ++ T b) hP h1
          rcases feed_sim hf h n hb ⟨pre ++ [x], by simpa using epre⟩ (h2.trans h4) h5 with h6 | ⟨m, h6, h7⟩
          · exact .inl h6
          · have e : ex N M (x :: rest) ++ T b = N x ++ x :: (M x ++ (ex N M rest ++ T b)) := by rw [ex_cons]; simp
            refine .inr ⟨j + 1 + m, by omega, ?_⟩
            rw [e, hj]
            exact h7

/-- Executions from the entry. -/
theorem feed_keeps (hf : Flow f R) (h : Feed W f g R l k New P E H N M T) (hp : phisOf f f.entry = []) {τ : Loc.St}
    (hs : ∀ tail, ∃ τ2, Leads W g k f.entry (H f.entry ++ tail) τ f.entry tail τ2 ∧ Off New τ τ2 ∧ P f.entry (codeOf f f.entry) τ2) :
    Loc.Keeps W f l g k τ := by
  intro n
  have hc : codeOf f f.entry = f.body f.entry := by rw [← phisOf_append f f.entry, hp]; rfl
  have hg : g.body f.entry = H f.entry ++ (ex N M (codeOf f f.entry) ++ T f.entry) := by
    rw [← phisOf_append g f.entry, h.phis _ hf.entry, hp, h.code _ hf.entry]; rfl
  obtain ⟨τ2, ⟨j, hj⟩, h2, h3⟩ := hs (ex N M (codeOf f f.entry) ++ T f.entry)
  unfold Loc.runFn
  rw [h.entry, hg, ← hc]
  rcases feed_sim hf h n hf.entry (List.suffix_refl _) h2 h3 with h4 | ⟨m, h4, h5⟩
  · exact .inl h4
  · refine .inr ⟨j + m, by omega, ?_⟩
    rw [hj]
    exact h5

end Verif.Cg
