import Verif.Lift.Machine
import Verif.Spec.Uses
/-!
# Bookkeeping of the lifter: users, parents, operands that exist
-/
namespace Verif.Lift
open Verif Verif.Bpf Verif.IR Verif.GenBB
set_option linter.unusedSimpArgs false
set_option linter.unusedVariables false

/-- The value is an instruction that exists. -/
def Known (s : LSt) (y : Nat) : Prop := y < 6 ∨ ∃ b, y ∈ s.body b

/-- Uses are listed, once; operands exist; instructions know their block. -/
structure Books (R : Nat → Prop) (s : LSt) : Prop where
  users : ∀ y, (s.users y).Nodup ∧ ∀ x, x ∈ s.users y ↔ 0 < refs (s.insn x) y
  far : ∀ x, s.next ≤ x → ∀ y, refs (s.insn x) y = 0
  low : ∀ x, x < 6 → s.insn x = init.insn x
  next : 6 ≤ s.next
  body : ∀ b x, x ∈ s.body b → s.parent x = b ∧ 6 ≤ x ∧ x < s.next ∧ R b
  refs : ∀ x y, 0 < refs (s.insn x) y → Known s y
  defs : ∀ r b y, s.defs r b = some (.insn y) → Known s y
  inc : ∀ b r x, s.inc b r = some x → (s.insn x).op = .phi ∧ 6 ≤ x ∧ x < s.next
  all : ∀ x, x < s.next → Known s x
  phi : ∀ x, (s.insn x).op = .phi → s.insn x = { phi0 with phi := (s.insn x).phi }

/-- What a step keeps. -/
structure Grows (s s' : LSt) : Prop where
  next : s.next ≤ s'.next
  op : ∀ x, x < s.next → (s'.insn x).op = (s.insn x).op
  known : ∀ y, Known s y → Known s' y

theorem Grows.refl (s : LSt) : Grows s s := ⟨Nat.le_refl _, fun _ _ => rfl, fun _ h => h⟩

theorem Grows.trans {s t u : LSt} (h : Grows s t) (k : Grows t u) : Grows s u :=
  ⟨Nat.le_trans h.next k.next, fun x hx => (k.op x (Nat.lt_of_lt_of_le hx h.next)).trans (h.op x hx), fun y hy => k.known y (h.known y hy)⟩

variable {R : Nat → Prop} {s : LSt}

theorem Books.init (R : Nat → Prop) : Books R init := by
  have h0 : ∀ x y, IR.refs (Lift.init.insn x) y = 0 := by
    intro x y
    show IR.refs (if x = 0 then _ else _) y = 0
    split <;> simp [IR.refs]
  refine ⟨fun y => ⟨List.nodup_nil, fun x => ?_⟩, fun x _ y => h0 x y, fun _ _ => rfl, Nat.le_refl _, ?_, ?_, ?_, ?_, fun x hx => .inl hx, ?_⟩
  · rw [h0]; simp [Lift.init]
  · intro b x hx; simp [Lift.init] at hx
  · intro x y h; rw [h0] at h; omega
  · intro r b y h; simp [Lift.init] at h
  · intro b r x h; simp [Lift.init] at h
  · intro x hx
    have hx : (if x = 0 then _ else _ : Insn).op = .phi := hx
    split at hx <;> cases hx

theorem Books.write (h : Books R s) {r b : Nat} {v : Val} (hv : ∀ y, v = .insn y → Known s y) : Books R (s.write r b v) := by
  refine ⟨h.users, h.far, h.low, h.next, h.body, h.refs, ?_, h.inc, h.all, h.phi⟩
  intro r' b' y hy
  simp only [LSt.write, upd] at hy
  split at hy
  · unfold upd at hy
    split at hy
    · cases hy; exact hv y rfl
    · exact h.defs _ _ y hy
  · exact h.defs r' b' y hy

theorem grows_write (s : LSt) (r b : Nat) (v : Val) : Grows s (s.write r b v) := ⟨Nat.le_refl _, fun _ _ => rfl, fun _ h => h⟩

theorem Books.sealed (h : Books R s) (g : Nat → Bool) : Books R { s with sealed := g } := ⟨h.users, h.far, h.low, h.next, h.body, h.refs, h.defs, h.inc, h.all, h.phi⟩

theorem Books.filled (h : Books R s) (g : Nat → Bool) : Books R { s with filled := g } := ⟨h.users, h.far, h.low, h.next, h.body, h.refs, h.defs, h.inc, h.all, h.phi⟩

theorem refs_phi0 (y : Nat) : IR.refs phi0 y = 0 := by simp [IR.refs, phi0]

theorem known_front (s : LSt) (b : Nat) (i : Insn) : (∀ y, Known s y → Known (s.front b i) y) ∧ Known (s.front b i) s.next := by
  refine ⟨fun y hy => ?_, .inr ⟨b, ?_⟩⟩
  · refine hy.imp id ?_
    rintro ⟨c, hc⟩
    refine ⟨c, ?_⟩
    show y ∈ upd s.body b (s.next :: s.body b) c
    unfold upd
    split
    · rename_i e; subst e; exact List.mem_cons_of_mem _ hc
    · exact hc
  · show s.next ∈ upd s.body b (s.next :: s.body b) b
    rw [upd_same]; simp

theorem known_back (s : LSt) (b : Nat) (i : Insn) : (∀ y, Known s y → Known (s.back b i) y) ∧ Known (s.back b i) s.next := by
  refine ⟨fun y hy => ?_, .inr ⟨b, ?_⟩⟩
  · refine hy.imp id ?_
    rintro ⟨c, hc⟩
    refine ⟨c, ?_⟩
    show y ∈ upd s.body b (s.body b ++ [s.next]) c
    unfold upd
    split
    · rename_i e; subst e; exact List.mem_append_left _ hc
    · exact hc
  · show s.next ∈ upd s.body b (s.body b ++ [s.next]) b
    rw [upd_same]; simp

theorem insn_fresh {s : LSt} {i : Insn} {x : Nat} (h : x < s.next) : upd s.insn s.next i x = s.insn x := upd_ne _ _ (by omega)

/-- A new phi without operands. -/
theorem Books.front (h : Books R s) {b : Nat} (hb : R b) : Books R (s.front b phi0) := by
  have hk := known_front s b phi0
  have hr : ∀ x y, IR.refs (upd s.insn s.next phi0 x) y = IR.refs (s.insn x) y := by
    intro x y
    unfold upd
    split
    · rename_i e; subst e; rw [refs_phi0, h.far _ (Nat.le_refl _)]
    · rfl
  refine ⟨fun y => ⟨(h.users y).1, fun x => ?_⟩, fun x hx y => ?_, fun x hx => ?_, ?_, fun c x hx => ?_, fun x y hxy => ?_, ?_, ?_, fun x hx => (Nat.lt_or_ge x s.next).elim (fun h' => hk.1 x (h.all x h')) fun h' => by
      have : x < s.next + 1 := hx
      have : x = s.next := by omega
      rw [this]; exact hk.2, ?_⟩
  · rw [show (s.front b phi0).insn = upd s.insn s.next phi0 from rfl, hr]; exact (h.users y).2 x
  · rw [show (s.front b phi0).insn = upd s.insn s.next phi0 from rfl, hr]
    exact h.far x (by have : s.next + 1 ≤ x := hx; omega) y
  · have := h.next
    rw [show (s.front b phi0).insn = upd s.insn s.next phi0 from rfl, insn_fresh (by omega)]; exact h.low x hx
  · have := h.next; show 6 ≤ s.next + 1; omega
  · have hx : x ∈ upd s.body b (s.next :: s.body b) c := hx
    show upd s.parent s.next b x = c ∧ 6 ≤ x ∧ x < s.next + 1 ∧ R c
    have hn := h.next
    have old : x ∈ s.body c → upd s.parent s.next b x = c ∧ 6 ≤ x ∧ x < s.next + 1 ∧ R c := by
      intro hx
      obtain ⟨h1, h2, h3, h4⟩ := h.body c x hx
      exact ⟨by rw [upd_ne _ _ (by omega)]; exact h1, h2, by omega, h4⟩
    unfold upd at hx
    split at hx
    · rename_i e; subst e
      rcases List.mem_cons.1 hx with rfl | hx
      · exact ⟨upd_same _ _ _, hn, by omega, hb⟩
      · exact old hx
    · exact old hx
  · rw [show (s.front b phi0).insn = upd s.insn s.next phi0 from rfl, hr] at hxy
    exact hk.1 y (h.refs x y hxy)
  · intro r c y hy; exact hk.1 y (h.defs r c y hy)
  · intro c r x hx
    obtain ⟨h1, h2, h3⟩ := h.inc c r x hx
    refine ⟨?_, h2, ?_⟩
    · rw [show (s.front b phi0).insn = upd s.insn s.next phi0 from rfl, insn_fresh h3]; exact h1
    · show x < s.next + 1; omega
  · intro x
    rw [show (s.front b phi0).insn = upd s.insn s.next phi0 from rfl]
    unfold upd
    split
    · intro _; rfl
    · exact h.phi x

theorem grows_front (s : LSt) (b : Nat) : Grows s (s.front b phi0) := by
  refine ⟨Nat.le_succ _, fun x hx => ?_, (known_front s b phi0).1⟩
  rw [show (s.front b phi0).insn = upd s.insn s.next phi0 from rfl, insn_fresh hx]

theorem mem_pushU {l : List Nat} {x y : Nat} : y ∈ pushU l x ↔ y ∈ l ∨ y = x := by
  unfold pushU
  split
  · rename_i h
    exact ⟨.inl, fun h' => h'.elim id fun e => by rw [e]; exact h⟩
  · simp

theorem nodup_pushU {l : List Nat} {x : Nat} (h : l.Nodup) : (pushU l x).Nodup := by
  unfold pushU
  split
  · exact h
  · rename_i hx
    rw [List.nodup_append]
    refine ⟨h, by simp, ?_⟩
    intro a ha b hb e
    rw [List.mem_singleton] at hb
    exact hx (by rw [← hb, ← e]; exact ha)

/-- Users of the new state when `v` gets the user `x`. -/
theorem users_addUser (s : LSt) (x : Nat) (v : Val) (y : Nat) : (s.addUser x v).users y = if v = .insn y then pushU (s.users y) x else s.users y := by
  cases v with
  | insn z =>
    show upd s.users z (pushU (s.users z) x) y = _
    unfold upd
    by_cases e : y = z
    · subst e; simp
    · rw [if_neg e, if_neg (by simp; exact fun h => e h.symm)]
  | const => rw [if_neg (by simp)]; rfl
  | undef => rw [if_neg (by simp)]; rfl

theorem refs_pushPhi {i : Insn} (ho : i.op = .phi) (o : Nat × Val) (y : Nat) :
    IR.refs { i with phi := i.phi ++ [o] } y = IR.refs i y + if o.2 = .insn y then 1 else 0 := by
  unfold IR.refs
  simp only [ho, if_true, List.countP_append, List.countP_singleton]
  have : (o.2 == Val.insn y) = decide (o.2 = .insn y) := by rw [Bool.eq_iff_iff]; simp
  rw [this]
  by_cases e : o.2 = .insn y
  · simp [e]; omega
  · simp [e]

/-- Adding an operand to a phi. -/
theorem Books.push (h : Books R s) {x p : Nat} {v : Val} (hx : (s.insn x).op = .phi) (h6 : 6 ≤ x) (hn : x < s.next) (hv : ∀ y, v = .insn y → Known s y) :
    Books R ((s.addUser x v).pushPhi x (p, v)) := by
  obtain ⟨u, hu⟩ := addUser_eq s x v
  have hins : ((s.addUser x v).pushPhi x (p, v)).insn = upd s.insn x { s.insn x with phi := (s.insn x).phi ++ [(p, v)] } := by rw [hu]; rfl
  have hus : ((s.addUser x v).pushPhi x (p, v)).users = (s.addUser x v).users := rfl
  have hrest : ((s.addUser x v).pushPhi x (p, v)).next = s.next ∧ ((s.addUser x v).pushPhi x (p, v)).body = s.body ∧
      ((s.addUser x v).pushPhi x (p, v)).parent = s.parent ∧ ((s.addUser x v).pushPhi x (p, v)).defs = s.defs ∧ ((s.addUser x v).pushPhi x (p, v)).inc = s.inc := by
    rw [hu]; exact ⟨rfl, rfl, rfl, rfl, rfl⟩
  obtain ⟨e1, e2, e3, e4, e5⟩ := hrest
  have hr : ∀ z y, IR.refs (((s.addUser x v).pushPhi x (p, v)).insn z) y = IR.refs (s.insn z) y + if z = x ∧ v = .insn y then 1 else 0 := by
    intro z y
    rw [hins]
    unfold upd
    by_cases e : z = x
    · subst e
      rw [if_pos rfl, refs_pushPhi hx]
      simp
    · simp [e]
  have hkn : ∀ y, Known ((s.addUser x v).pushPhi x (p, v)) y ↔ Known s y := by
    intro y; unfold Known; rw [e2]
  refine ⟨fun y => ⟨?_, fun z => ?_⟩, fun z hz y => ?_, fun z hz => ?_, by rw [e1]; exact h.next, by rw [e1, e2, e3]; exact h.body, fun z y hz => ?_, fun r b y hy => ?_, fun b r z hz => ?_, fun x hx => (hkn x).2 (h.all x (by rw [e1] at hx; exact hx)), ?_⟩
  · rw [hus, users_addUser]
    split
    · exact nodup_pushU (h.users y).1
    · exact (h.users y).1
  · rw [hus, users_addUser, hr]
    by_cases e : v = .insn y
    · rw [if_pos e, mem_pushU, (h.users y).2]
      by_cases e' : z = x
      · simp [e', e]
      · simp [e']
    · rw [if_neg e, (h.users y).2]
      simp [e]
  · rw [e1] at hz
    rw [hr, h.far z hz, if_neg (by omega)]
  · rw [hins, upd_ne _ _ (by omega)]; exact h.low z hz
  · rw [hr] at hz
    rw [hkn]
    by_cases e : z = x ∧ v = .insn y
    · exact hv y e.2
    · rw [if_neg e] at hz; exact h.refs z y hz
  · rw [e4] at hy; rw [hkn]; exact h.defs r b y hy
  · rw [e5] at hz
    obtain ⟨h1, h2, h3⟩ := h.inc b r z hz
    refine ⟨?_, h2, by rw [e1]; exact h3⟩
    rw [hins]
    unfold upd
    split
    · rename_i e; subst e; exact h1
    · exact h1
  · intro z
    rw [hins]
    unfold upd
    split
    · rename_i e; subst e
      intro _
      have := h.phi z hx
      dsimp only
      rw [this]
    · exact h.phi z

theorem grows_push (s : LSt) {x p : Nat} {v : Val} : Grows s ((s.addUser x v).pushPhi x (p, v)) := by
  obtain ⟨u, hu⟩ := addUser_eq s x v
  rw [hu]
  refine ⟨Nat.le_refl _, fun y hy => ?_, fun y hy => hy⟩
  show (upd s.insn x _ y).op = _
  unfold upd
  split
  · rename_i e; subst e; rfl
  · rfl

/-! ## Reading -/

/-- What reading keeps. -/
def RdBooks (R : Nat → Prop) (rd : Nat → LSt → Out (Val × LSt)) : Prop :=
  ∀ b s v s', R b → Books R s → rd b s = .ok (v, s') → Books R s' ∧ Grows s s' ∧ ∀ y, v = .insn y → Known s' y

theorem addOps_books {rd : Nat → LSt → Out (Val × LSt)} (hrd : RdBooks R rd) {x : Nat} (ps : List Nat) : ∀ (s s' : LSt), (∀ p ∈ ps, R p) → Books R s →
    (s.insn x).op = .phi → 6 ≤ x → x < s.next → addOps rd x ps s = .ok s' → Books R s' ∧ Grows s s' := by
  induction ps with
  | nil => intro s s' _ h _ _ _ e; cases e; exact ⟨h, .refl _⟩
  | cons p ps ih =>
    intro s s' hp h hx h6 hn e
    simp only [addOps] at e
    obtain ⟨⟨v, s1⟩, e1, e⟩ := Out.bind_eq_ok.1 e
    obtain ⟨a1, a2, a3⟩ := hrd p s v s1 (hp p (by simp)) h e1
    have hx1 : (s1.insn x).op = .phi := by rw [a2.op x hn]; exact hx
    have hn1 := Nat.lt_of_lt_of_le hn a2.next
    have b1 := a1.push (p := p) hx1 h6 hn1 a3
    have b2 := grows_push s1 (x := x) (p := p) (v := v)
    obtain ⟨c1, c2⟩ := ih _ s' (fun q hq => hp q (by simp [hq])) b1 (by rw [b2.op x hn1]; exact hx1) h6 (Nat.lt_of_lt_of_le hn1 b2.next) e
    exact ⟨c1, a2.trans (b2.trans c2)⟩

theorem readVar_books {C : List Blk} (hC : ∀ b p, R b → p ∈ predsOf C b → R p) (k r : Nat) : RdBooks R (readVar C k r) := by
  induction k with
  | zero => intro b s v s' _ _ e; simp [readVar] at e
  | succ k ih =>
    intro b s v s' hb h e
    rw [readVar] at e
    split at e
    · cases e; exact ⟨h, .refl _, fun y hy => by cases hy; exact .inl (by omega)⟩
    split at e
    · cases e
    split at e
    · next v0 hv0 => cases e; exact ⟨h, .refl _, fun y hy => h.defs r b y (by rw [hv0, hy])⟩
    split at e
    · split at e
      · cases e; exact ⟨h, .refl _, fun y hy => by cases hy; exact .inl (by omega)⟩
      · cases e
    split at e
    · cases e
      have h1 := h.front hb
      have hk := known_front s b phi0
      have hop : ((s.front b phi0).insn s.next).op = .phi := by
        show (upd s.insn s.next phi0 s.next).op = _
        rw [upd_same]; rfl
      have h2 : Books R { s.front b phi0 with inc := upd (s.front b phi0).inc b (upd ((s.front b phi0).inc b) r (some s.next)) } := by
        refine ⟨h1.users, h1.far, h1.low, h1.next, h1.body, h1.refs, h1.defs, ?_, h1.all, h1.phi⟩
        intro c r' x hx
        have hx : upd s.inc b (upd (s.inc b) r (some s.next)) c r' = some x := hx
        have hnew : ((s.front b phi0).insn s.next).op = .phi ∧ 6 ≤ s.next ∧ s.next < (s.front b phi0).next := ⟨hop, h.next, Nat.lt_succ_self _⟩
        unfold upd at hx
        split at hx
        · rename_i e; subst e
          dsimp only at hx
          split at hx
          · cases hx; exact hnew
          · exact h1.inc c r' x hx
        · exact h1.inc c r' x hx
      refine ⟨h2.write fun y hy => by cases hy; exact hk.2, ?_, fun y hy => by cases hy; exact hk.2⟩
      have := grows_front s b
      exact ⟨this.next, this.op, this.known⟩
    split at e
    · next p hp =>
      obtain ⟨⟨v1, s1⟩, e1, e⟩ := Out.bind_eq_ok.1 e
      cases e
      obtain ⟨a1, a2, a3⟩ := ih p s v s1 (hC b p hb (by rw [hp]; simp)) h e1
      exact ⟨a1.write a3, a2.trans (grows_write _ _ _ _), a3⟩
    · obtain ⟨s1, e1, e⟩ := Out.bind_eq_ok.1 e
      cases e
      have hk := known_front s b phi0
      have h1 := (h.front hb).write (r := r) (b := b) (v := .insn s.next) fun y hy => by cases hy; exact hk.2
      have g1 := (grows_front s b).trans (grows_write _ r b (.insn s.next))
      have hop : (((s.front b phi0).write r b (.insn s.next)).insn s.next).op = .phi := by
        show (upd s.insn s.next phi0 s.next).op = _
        rw [upd_same]; rfl
      obtain ⟨a1, a2⟩ := addOps_books ih (predsOf C b) _ s1 (fun p => hC b p hb) h1 hop h.next (Nat.lt_succ_self _) e1
      have hkn : Known s1 s.next := a2.known _ hk.2
      exact ⟨a1.write fun y hy => by cases hy; exact hkn, (g1.trans a2).trans (grows_write _ _ _ _), fun y hy => by cases hy; exact hkn⟩

theorem readOpd_books {C : List Blk} (hC : ∀ b p, R b → p ∈ predsOf C b → R p) {k : Nat} {o : Opd} : RdBooks R (fun b => readOpd C k b o) := by
  intro b s v s' hb h e
  cases o with
  | imm i => cases e; exact ⟨h, .refl _, fun y hy => by cases hy⟩
  | reg r => exact readVar_books hC k r b s v s' hb h e

theorem readOpds_books {C : List Blk} (hC : ∀ b p, R b → p ∈ predsOf C b → R p) {k b : Nat} (hb : R b) (os : List Opd) : ∀ (s : LSt) (vs : List Val) (s' : LSt), Books R s →
    readOpds C k b os s = .ok (vs, s') → Books R s' ∧ Grows s s' ∧ ∀ v ∈ vs, ∀ y, v = .insn y → Known s' y := by
  induction os with
  | nil => intro s vs s' h e; cases e; exact ⟨h, .refl _, by simp⟩
  | cons o os ih =>
    intro s vs s' h e
    simp only [readOpds] at e
    obtain ⟨⟨v, s1⟩, e1, e⟩ := Out.bind_eq_ok.1 e
    obtain ⟨⟨ws, s2⟩, e2, e⟩ := Out.bind_eq_ok.1 e
    cases e
    obtain ⟨a1, a2, a3⟩ := readOpd_books hC b s v s1 hb h e1
    obtain ⟨b1, b2, b3⟩ := ih s1 ws _ a1 e2
    refine ⟨b1, a2.trans b2, fun w hw y hy => ?_⟩
    rcases List.mem_cons.1 hw with rfl | hw
    · exact b2.known y (a3 y hy)
    · exact b3 w hw y hy

/-! ## New instructions -/

theorem users_fold (x : Nat) (vs : List Val) : ∀ (s : LSt) (y : Nat), (s.users y).Nodup → ((vs.foldl (fun s v => s.addUser x v) s).users y).Nodup ∧
    ∀ z, z ∈ (vs.foldl (fun s v => s.addUser x v) s).users y ↔ z ∈ s.users y ∨ (z = x ∧ .insn y ∈ vs) := by
  induction vs with
  | nil => intro s y h; exact ⟨h, by simp⟩
  | cons v vs ih =>
    intro s y h
    have h1 : ((s.addUser x v).users y).Nodup := by
      rw [users_addUser]
      split
      · exact nodup_pushU h
      · exact h
    obtain ⟨a1, a2⟩ := ih (s.addUser x v) y h1
    refine ⟨a1, fun z => ?_⟩
    rw [List.foldl_cons, a2, users_addUser]
    by_cases e : v = .insn y
    · rw [if_pos e, mem_pushU, e]
      constructor
      · rintro ((h | h) | ⟨h, h'⟩)
        · exact .inl h
        · exact .inr ⟨h, by simp⟩
        · exact .inr ⟨h, by simp [h']⟩
      · rintro (h | ⟨h, _⟩)
        · exact .inl (.inl h)
        · exact .inl (.inr h)
    · rw [if_neg e]
      simp only [List.mem_cons]
      constructor
      · rintro (h | ⟨h, h'⟩)
        · exact .inl h
        · exact .inr ⟨h, .inr h'⟩
      · rintro (h | ⟨h, h' | h'⟩)
        · exact .inl h
        · exact absurd h'.symm e
        · exact .inr ⟨h, h'⟩

/-- A new instruction: not a phi, with an address only if it accesses memory. -/
def Sound (i : Insn) : Prop := i.op ≠ .phi ∧ i.phi = [] ∧ (∀ y, i.addr = .insn y → i.op = .loadraw ∨ i.op = .storeraw)

theorem refs_sound {i : Insn} (h : Sound i) (y : Nat) : 0 < IR.refs i y ↔ .insn y ∈ i.addr :: i.vals := by
  unfold IR.refs
  rw [if_neg h.1, List.mem_cons]
  constructor
  · intro hp
    by_cases hv : Val.insn y ∈ i.vals
    · exact .inr hv
    · rw [List.count_eq_zero.2 hv] at hp
      split at hp
      · rename_i e; exact .inl e.2.symm
      · omega
  · rintro (e | e)
    · rw [if_pos ⟨h.2.2 y e.symm, e.symm⟩]; omega
    · have := List.count_pos_iff.2 e
      omega

theorem emit_books (h : Books R s) {b : Nat} (hb : R b) {i : Insn} (hi : Sound i) (hv : ∀ v ∈ i.addr :: i.vals, ∀ y, v = .insn y → Known s y) {d : Option Nat} {s' : LSt}
    (e : emit b i d s = .ok s') : Books R s' ∧ Grows s s' := by
  have hk := known_back s b i
  obtain ⟨u, hu⟩ := foldl_addUser s.next (i.addr :: i.vals) (s.back b i)
  have hus := users_fold s.next (i.addr :: i.vals) (s.back b i)
  rw [hu] at hus
  have hr : ∀ x y, x ≠ s.next → IR.refs (upd s.insn s.next i x) y = IR.refs (s.insn x) y := fun x y hx => by rw [upd_ne _ _ hx]
  have h1 : Books R { s.back b i with users := u } := by
    refine ⟨fun y => ?_, fun x hx y => ?_, fun x hx => ?_, ?_, fun c x hx => ?_, fun x y hxy => ?_, ?_, ?_, fun x hx => (Nat.lt_or_ge x s.next).elim (fun h' => hk.1 x (h.all x h')) fun h' => by
      have : x < s.next + 1 := hx
      have : x = s.next := by omega
      rw [this]; exact hk.2, ?_⟩
    · obtain ⟨a1, a2⟩ := hus y (h.users y).1
      refine ⟨a1, fun x => ?_⟩
      rw [a2 x]
      show (x ∈ s.users y ∨ _) ↔ 0 < IR.refs (upd s.insn s.next i x) y
      rw [(h.users y).2]
      by_cases e : x = s.next
      · subst e
        rw [upd_same, refs_sound hi, h.far _ (Nat.le_refl _)]
        simp
      · rw [hr x y e]
        simp [e]
    · have hx : s.next + 1 ≤ x := hx
      show IR.refs (upd s.insn s.next i x) y = 0
      rw [hr x y (by omega)]
      exact h.far x (by omega) y
    · have := h.next
      show upd s.insn s.next i x = _
      rw [insn_fresh (by omega)]; exact h.low x hx
    · have := h.next; show 6 ≤ s.next + 1; omega
    · have hx : x ∈ upd s.body b (s.body b ++ [s.next]) c := hx
      show upd s.parent s.next b x = c ∧ 6 ≤ x ∧ x < s.next + 1 ∧ R c
      have hn := h.next
      have old : x ∈ s.body c → upd s.parent s.next b x = c ∧ 6 ≤ x ∧ x < s.next + 1 ∧ R c := by
        intro hx
        obtain ⟨h1, h2, h3, h4⟩ := h.body c x hx
        exact ⟨by rw [upd_ne _ _ (by omega)]; exact h1, h2, by omega, h4⟩
      unfold upd at hx
      split at hx
      · rename_i e; subst e
        rcases List.mem_append.1 hx with hx | hx
        · exact old hx
        · rw [List.mem_singleton] at hx; subst hx
          exact ⟨upd_same _ _ _, hn, by omega, hb⟩
      · exact old hx
    · have hxy : 0 < IR.refs (upd s.insn s.next i x) y := hxy
      by_cases e : x = s.next
      · subst e
        rw [upd_same, refs_sound hi] at hxy
        exact hk.1 y (hv _ hxy y rfl)
      · rw [hr x y e] at hxy
        exact hk.1 y (h.refs x y hxy)
    · intro r c y hy; exact hk.1 y (h.defs r c y hy)
    · intro c r x hx
      obtain ⟨h1, h2, h3⟩ := h.inc c r x hx
      refine ⟨?_, h2, ?_⟩
      · show (upd s.insn s.next i x).op = _
        rw [insn_fresh h3]; exact h1
      · show x < s.next + 1; omega
    · intro x
      show (upd s.insn s.next i x).op = _ → upd s.insn s.next i x = { phi0 with phi := (upd s.insn s.next i x).phi }
      unfold upd
      split
      · intro ho; exact absurd ho hi.1
      · exact h.phi x
  have g1 : Grows s { s.back b i with users := u } := by
    refine ⟨Nat.le_succ _, fun x hx => ?_, hk.1⟩
    show (upd s.insn s.next i x).op = _
    rw [insn_fresh hx]
  unfold emit at e
  simp only at e
  rw [hu] at e
  cases d with
  | none => cases e; exact ⟨h1, g1⟩
  | some d =>
    simp only [writeReg] at e
    split at e
    · cases e
    · cases e
      exact ⟨h1.write fun y hy => by cases hy; exact hk.2, g1.trans (grows_write _ _ _ _)⟩

/-- What the plan says about a new instruction. -/
def SoundAct : Act → Prop
  | .mov _ _ => True
  | .emit i a _ _ => i.op ≠ .phi ∧ i.phi = [] ∧ i.addr = .undef ∧ (a.isSome → i.op = .loadraw ∨ i.op = .storeraw)

theorem sound_ite {c : Prop} [Decidable c] {x y : Out Act} (hx : ∀ a, x = .ok a → SoundAct a) (hy : ∀ a, y = .ok a → SoundAct a) :
    ∀ a, (if c then x else y) = .ok a → SoundAct a := by
  intro a h
  by_cases hc : c
  · rw [if_pos hc] at h; exact hx a h
  · rw [if_neg hc] at h; exact hy a h

theorem plan_sound {C : List Blk} {defd : Nat → Bool} {q : PreInsn} : ∀ {a : Act}, plan C defd q = .ok a → SoundAct a := by
  have h1 : ∀ k o, aluIr k = some o → o ≠ .phi := by intro k o h; unfold aluIr at h; split at h <;> cases h <;> decide
  have h2 : ∀ k o, condIr k = some o → o ≠ .phi := by intro k o h; unfold condIr at h; split at h <;> cases h <;> decide
  have ok : ∀ (i : Insn) o os d, i.op ≠ .phi → i.phi = [] → i.addr = .undef → (o.isSome → i.op = .loadraw ∨ i.op = .storeraw) → ∀ a, Out.ok (Act.emit i o os d) = .ok a → SoundAct a := by
    intro i o os d h1 h2 h3 h4 a h; cases h; exact ⟨h1, h2, h3, h4⟩
  have err : ∀ a, (Out.err : Out Act) = .ok a → SoundAct a := by intro a h; cases h
  have ub : ∀ a, (Out.ub : Out Act) = .ok a → SoundAct a := by intro a h; cases h
  unfold plan
  dsimp only
  intro a
  refine (?_ : ∀ a, _ = Out.ok a → SoundAct a) a
  refine sound_ite ?_ (sound_ite ?_ (sound_ite ?_ (sound_ite ?_ (sound_ite ?_ (sound_ite ?_ (sound_ite ?_ err))))))
  · generalize hk : aluIr _ = k
    cases k with
    | some o => exact ok _ _ _ _ (h1 _ _ hk) rfl rfl (by simp)
    | none =>
      refine sound_ite (by intro a h; cases h; trivial) (sound_ite (sound_ite err (sound_ite ?_ ?_)) (sound_ite (sound_ite err ?_) err))
      all_goals exact ok _ _ _ _ (by simp) rfl rfl (by simp)
  · exact sound_ite (ok _ _ _ _ (by simp) rfl rfl (by simp)) err
  · exact ok _ _ _ _ (by simp) rfl rfl (by simp)
  · exact ok _ _ _ _ (by simp) rfl rfl (by simp)
  · exact ok _ _ _ _ (by simp) rfl rfl (by simp)
  · exact ok _ _ _ _ (by simp) rfl rfl (by simp)
  · refine sound_ite ?_ (sound_ite (ok _ _ _ _ (by simp) rfl rfl (by simp)) ?_)
    · intro a h
      obtain ⟨t, _, h⟩ := Out.bind_eq_ok.1 h
      exact ok _ _ _ _ (by simp) rfl rfl (by simp) a h
    · generalize hk : condIr _ = k
      cases k with
      | some o =>
        intro a h
        obtain ⟨t, _, h⟩ := Out.bind_eq_ok.1 h
        obtain ⟨t2, _, h⟩ := Out.bind_eq_ok.1 h
        exact ok _ _ _ _ (h2 _ _ hk) rfl rfl (by simp) a h
      | none =>
        refine sound_ite ?_ err
        unfold planCall
        refine sound_ite err (sound_ite err (sound_ite (sound_ite err (sound_ite ub (ok _ _ _ _ (by simp) rfl rfl (by simp)))) (sound_ite err ?_)))
        generalize helperArgs[(q.slot.imm.toNat : Nat)]? = k
        cases k with
        | none => exact err
        | some k => exact sound_ite (sound_ite (ok _ _ _ _ (by simp) rfl rfl (by simp)) err) (sound_ite err (ok _ _ _ _ (by simp) rfl rfl (by simp)))

theorem apply_books {C : List Blk} (hC : ∀ b p, R b → p ∈ predsOf C b → R p) {k b : Nat} (hb : R b) {a : Act} (ha : SoundAct a) {s s' : LSt} (h : Books R s)
    (e : apply C k b a s = .ok s') : Books R s' ∧ Grows s s' := by
  cases a with
  | mov d o =>
    simp only [apply] at e
    obtain ⟨⟨v, s1⟩, e1, e⟩ := Out.bind_eq_ok.1 e
    obtain ⟨a1, a2, a3⟩ := readOpd_books hC b s v s1 hb h e1
    simp only [writeReg] at e
    split at e
    · cases e
    · cases e; exact ⟨a1.write a3, a2.trans (grows_write _ _ _ _)⟩
  | emit i a os d =>
    obtain ⟨i1, i2, i3, i4⟩ := ha
    cases a with
    | none =>
      simp only [apply] at e
      obtain ⟨⟨vs, s1⟩, e1, e⟩ := Out.bind_eq_ok.1 e
      obtain ⟨a1, a2, a3⟩ := readOpds_books hC hb os s vs s1 h e1
      obtain ⟨b1, b2⟩ := emit_books (i := { i with vals := vs }) a1 hb ⟨i1, i2, fun y hy => by rw [show ({ i with vals := vs } : Insn).addr = i.addr from rfl, i3] at hy; cases hy⟩
        (fun v hv y hy => by
          rcases List.mem_cons.1 hv with e | hv
          · rw [hy, show ({ i with vals := vs } : Insn).addr = i.addr from rfl, i3] at e; cases e
          · exact a3 v hv y hy) e
      exact ⟨b1, a2.trans b2⟩
    | some r =>
      simp only [apply] at e
      obtain ⟨⟨av, s0⟩, e0, e⟩ := Out.bind_eq_ok.1 e
      obtain ⟨⟨vs, s1⟩, e1, e⟩ := Out.bind_eq_ok.1 e
      obtain ⟨z1, z2, z3⟩ := readVar_books hC k r b s av s0 hb h e0
      obtain ⟨a1, a2, a3⟩ := readOpds_books hC hb os s0 vs s1 z1 e1
      obtain ⟨b1, b2⟩ := emit_books (i := { i with addr := av, vals := vs }) a1 hb ⟨i1, i2, fun y _ => i4 rfl⟩
        (fun v hv y hy => by
          rcases List.mem_cons.1 hv with e | hv
          · exact a2.known y (z3 y (e.symm.trans hy))
          · exact a3 v hv y hy) e
      exact ⟨b1, z2.trans (a2.trans b2)⟩

theorem fill_books {C : List Blk} (hC : ∀ b p, R b → p ∈ predsOf C b → R p) {k b : Nat} (hb : R b) (qs : List PreInsn) : ∀ {s s' : LSt}, Books R s →
    fill C k b qs s = .ok s' → Books R s' := by
  induction qs with
  | nil => intro s s' h e; cases e; exact h
  | cons q qs ih =>
    intro s s' h e
    simp only [fill, transformInsn] at e
    obtain ⟨s1, e1, e⟩ := Out.bind_eq_ok.1 e
    obtain ⟨a, e2, e1⟩ := Out.bind_eq_ok.1 e1
    obtain ⟨s2, e3, e1⟩ := Out.bind_eq_ok.1 e1
    split at e1
    · cases e1
    · cases e1
      exact ih (apply_books hC hb (plan_sound e2) h e3).1 e

theorem sealRegs_books {C : List Blk} (hC : ∀ b p, R b → p ∈ predsOf C b → R p) {k b : Nat} (hb : R b) (rs : List Nat) : ∀ {s s' : LSt}, Books R s →
    sealRegs C k b rs s = .ok s' → Books R s' := by
  induction rs with
  | nil => intro s s' h e; cases e; exact h
  | cons r rs ih =>
    intro s s' h e
    simp only [sealRegs] at e
    obtain ⟨s1, e1, e⟩ := Out.bind_eq_ok.1 e
    refine ih ?_ e
    split at e1
    · next x hx =>
      obtain ⟨h1, h2, h3⟩ := h.inc b r x hx
      exact (addOps_books (readVar_books hC k r) _ _ _ (fun p => hC b p hb) h h1 h2 h3 e1).1
    · cases e1; exact h

theorem visit_books {f : Nat → LSt → Out LSt} (bs : List Nat) (hf : ∀ b ∈ bs, ∀ s s', Books R s → f b s = .ok s' → Books R s') : ∀ {s s' : LSt}, Books R s →
    visit f bs s = .ok s' → Books R s' := by
  induction bs with
  | nil => intro s s' h e; cases e; exact h
  | cons b bs ih =>
    intro s s' h e
    simp only [visit] at e
    obtain ⟨s1, e1, e⟩ := Out.bind_eq_ok.1 e
    exact ih (fun c hc => hf c (by simp [hc])) (hf b (by simp) s s1 h e1) e

theorem transformBB_books {C : List Blk} (hC : ∀ b p, R b → p ∈ predsOf C b → R p) (hS : ∀ b p, R b → p ∈ succsOf C b → R p) (m k : Nat) : ∀ b, R b → ∀ s s', Books R s →
    transformBB C m k b s = .ok s' → Books R s' := by
  induction k with
  | zero => intro b _ s s' _ e; simp [transformBB] at e
  | succ k ih =>
    intro b hb s s' h e
    rw [transformBB.eq_def] at e
    dsimp only at e
    split at e
    · cases e; exact h
    obtain ⟨s1, e1, e⟩ := Out.bind_eq_ok.1 e
    have h1 : Books R s1 := by
      split at e1
      · simp only [sealBlock] at e1
        obtain ⟨s2, e2, e1⟩ := Out.bind_eq_ok.1 e1
        cases e1
        exact (sealRegs_books hC hb _ h e2).sealed _
      · cases e1; exact h
    split at e
    · cases e; exact h1
    obtain ⟨s2, e2, e⟩ := Out.bind_eq_ok.1 e
    exact visit_books _ (fun c hc => ih c (hS b c hb hc)) ((fill_books hC hb _ h1 e2).filled _) e

theorem lift_books {C : List Blk} (hC : ∀ b p, R b → p ∈ predsOf C b → R p) (hS : ∀ b p, R b → p ∈ succsOf C b → R p) (h0 : R 0) {m : Nat} {s : LSt}
    (e : liftBlocks m C = .ok s) : Books R s :=
  transformBB_books hC hS m m 0 h0 _ s (.init _) e

end Verif.Lift
