import Verif.Throw.Model
import Verif.Count.Lemmas
/-!
# The data flow analysis of the throw translation
-/
namespace Verif.Throw
open Verif Verif.IR Verif.Edit Verif.Guard Verif.Count

theorem mem_inter {s : Sets} {q : Nat} : ∀ {ps : List Nat} {l : List Nat},
    q ∈ ps.foldl (fun l p => l.filter fun x => decide (x ∈ s.out p)) l ↔ q ∈ l ∧ ∀ p ∈ ps, q ∈ s.out p := by
  intro ps
  induction ps with
  | nil => intro l; simp
  | cons p ps ih => intro l; simp [ih, and_assoc]

theorem mem_meet {s : Sets} {q : Nat} {ps : List Nat} : q ∈ meet s ps ↔ ps ≠ [] ∧ ∀ p ∈ ps, q ∈ s.out p := by
  cases ps with
  | nil => simp [meet]
  | cons p ps => simp [meet, mem_inter]

theorem nodup_inter {s : Sets} : ∀ {ps : List Nat} {l : List Nat}, l.Nodup →
    (ps.foldl (fun l p => l.filter fun x => decide (x ∈ s.out p)) l).Nodup := by
  intro ps
  induction ps with
  | nil => intro l h; simpa using h
  | cons p ps ih => intro l h; exact ih (h.filter _)

theorem nodup_meet {s : Sets} (h : ∀ b, (s.out b).Nodup) (ps : List Nat) : (meet s ps).Nodup := by
  cases ps with
  | nil => simp [meet]
  | cons p ps => exact nodup_inter (h p)

theorem mem_gens {f : Fn} {b q : Nat} : q ∈ gens f b ↔ q ∈ f.body b ∧ isReserve (f.insn q) = true := by simp [gens]

theorem mem_kills {f : Fn} {b q : Nat} : q ∈ kills f b ↔ ∃ x ∈ f.body b, releases (f.insn x) q = true := by
  simp only [kills, List.mem_filterMap, releases, Bool.and_eq_true, decide_eq_true_eq]
  constructor
  · rintro ⟨x, hx, h⟩
    split at h
    · rename_i h1
      cases h2 : (f.insn x).vals.head? with
      | none => rw [h2] at h; cases h
      | some v => rw [h2] at h; cases v <;> simp at h; subst h; exact ⟨x, hx, h1, h2⟩
    · cases h
  · rintro ⟨x, hx, h1, h2⟩
    exact ⟨x, hx, by rw [if_pos h1, h2]⟩

theorem not_kills {f : Fn} {b q : Nat} : q ∉ kills f b ↔ Keeps f q b := by
  rw [mem_kills]
  constructor
  · intro h x hx
    cases hr : releases (f.insn x) q with
    | false => rfl
    | true => exact absurd ⟨x, hx, hr⟩ h
  · rintro h ⟨x, hx, hr⟩
    rw [h x hx] at hr; cases hr

/-- What holds throughout the analysis. -/
structure Inv (f : Fn) (s : Sets) : Prop where
  nodupI : ∀ b, (s.inn b).Nodup
  nodupO : ∀ b, (s.out b).Nodup
  grow : ∀ b, ∀ q ∈ s.inn b, f.preds b ≠ [] ∧ ∀ p ∈ f.preds b, q ∈ s.out p
  only : ∀ b, ∀ q ∈ s.out b, (q ∈ s.inn b ∨ q ∈ gens f b) ∧ q ∉ kills f b
  kept : ∀ b, ∀ q ∈ s.out b, Kept f q b

def outOf (f : Fn) (b : Nat) (new : List Nat) : List Nat := ((gens f b).foldl pushU new).filter fun x => decide (x ∉ kills f b)

theorem mem_outOf {f : Fn} {b q : Nat} {new : List Nat} : q ∈ outOf f b new ↔ (q ∈ new ∨ q ∈ gens f b) ∧ q ∉ kills f b := by
  simp [outOf, mem_foldl_pushU]

theorem visit_fst (f : Fn) (s : Sets) (c : Bool) (b : Nat) : (visit f (s, c) b).1 =
    { inn := upd s.inn b (meet s (f.preds b)), out := upd s.out b (outOf f b (meet s (f.preds b))) } := rfl

/-- A visit of a block only adds. -/
theorem visit_mono {f : Fn} {s : Sets} (h : Inv f s) (c : Bool) (b : Nat) :
    (∀ d, ∀ q ∈ s.inn d, q ∈ (visit f (s, c) b).1.inn d) ∧ ∀ d, ∀ q ∈ s.out d, q ∈ (visit f (s, c) b).1.out d := by
  have h1 : ∀ q ∈ s.inn b, q ∈ meet s (f.preds b) := fun q hq => mem_meet.2 (h.grow b q hq)
  rw [visit_fst]
  refine ⟨fun d q hq => ?_, fun d q hq => ?_⟩
  · by_cases e : d = b
    · subst e; simp only [upd_same]; exact h1 q hq
    · simp only [upd_ne _ _ e]; exact hq
  · by_cases e : d = b
    · subst e
      simp only [upd_same]
      have := h.only d q hq
      exact mem_outOf.2 ⟨this.1.imp (h1 q) id, this.2⟩
    · simp only [upd_ne _ _ e]; exact hq

theorem visit_inv {f : Fn} {s : Sets} (h : Inv f s) (c : Bool) (b : Nat) : Inv f (visit f (s, c) b).1 := by
  have hm := visit_mono h c b
  have nm := nodup_meet h.nodupO (f.preds b)
  refine ⟨fun d => ?_, fun d => ?_, fun d q hq => ?_, fun d q hq => ?_, fun d q hq => ?_⟩
  · by_cases e : d = b
    · subst e; simp only [visit_fst, upd_same]; exact nm
    · simp only [visit_fst, upd_ne _ _ e]; exact h.nodupI d
  · by_cases e : d = b
    · subst e; simp only [visit_fst, upd_same]; exact (nodup_foldl_pushU nm).filter _
    · simp only [visit_fst, upd_ne _ _ e]; exact h.nodupO d
  · by_cases e : d = b
    · subst e
      simp only [visit_fst, upd_same] at hq
      obtain ⟨h1, h2⟩ := mem_meet.1 hq
      exact ⟨h1, fun p hp => hm.2 p q (h2 p hp)⟩
    · simp only [visit_fst, upd_ne _ _ e] at hq
      obtain ⟨h1, h2⟩ := h.grow d q hq
      exact ⟨h1, fun p hp => hm.2 p q (h2 p hp)⟩
  · by_cases e : d = b
    · subst e
      simp only [visit_fst, upd_same] at hq ⊢
      exact mem_outOf.1 hq
    · simp only [visit_fst, upd_ne _ _ e] at hq ⊢
      exact h.only d q hq
  · by_cases e : d = b
    · subst e
      simp only [visit_fst, upd_same] at hq
      obtain ⟨h1, h2⟩ := mem_outOf.1 hq
      rcases h1 with h1 | h1
      · obtain ⟨h3, h4⟩ := mem_meet.1 h1
        exact .join h3 (fun p hp => h.kept p q (h4 p hp)) (not_kills.1 h2)
      · exact .here (mem_gens.1 h1).1 (mem_gens.1 h1).2 (not_kills.1 h2)
    · simp only [visit_fst, upd_ne _ _ e] at hq
      exact h.kept d q hq

theorem start_inv (f : Fn) : Inv f start := by
  constructor <;> simp [start]

theorem nodup_sub_length {l m : List Nat} (hl : l.Nodup) (h : ∀ x ∈ l, x ∈ m) : l.length ≤ m.length := by
  induction l generalizing m with
  | nil => simp
  | cons a l ih =>
    have h1 : a ∈ m := h a (List.mem_cons_self ..)
    have h2 := ih (m := m.erase a) hl.of_cons fun x hx => by
      refine (List.mem_erase_of_ne ?_).2 (h x (List.mem_cons_of_mem _ hx))
      intro e; subst e; exact (List.nodup_cons.1 hl).1 hx
    rw [List.length_erase_of_mem h1] at h2
    have : 0 < m.length := List.length_pos_of_mem h1
    simp only [List.length_cons]; omega

theorem equalSet_iff {l m : List Nat} (hl : l.Nodup) (h : ∀ x ∈ l, x ∈ m) (hm : m.Nodup) : equalSet l m = false ↔ l.length < m.length := by
  have h1 := nodup_sub_length hl h
  have h2 : l.all (fun x => decide (x ∈ m)) = true := by simpa using h
  simp only [equalSet, h2, Bool.and_true, beq_eq_false_iff_ne]
  omega

/-- The size of the `in` sets. -/
def size (rs : List Nat) (s : Sets) : Nat := (rs.map fun b => (s.inn b).length).sum

theorem sum_le {l : List Nat} {u v : Nat → Nat} (h : ∀ b ∈ l, u b ≤ v b) : (l.map u).sum ≤ (l.map v).sum := by
  induction l with
  | nil => simp
  | cons a l ih =>
    have := ih fun b hb => h b (List.mem_cons_of_mem _ hb)
    have := h a (List.mem_cons_self ..)
    simp only [List.map_cons, List.sum_cons]; omega

theorem sum_lt {l : List Nat} {u v : Nat → Nat} (h : ∀ b ∈ l, u b ≤ v b) {a : Nat} (ha : a ∈ l) (hlt : u a < v a) : (l.map u).sum < (l.map v).sum := by
  induction l with
  | nil => cases ha
  | cons c l ih =>
    have h1 := sum_le fun b hb => h b (List.mem_cons_of_mem _ hb)
    have h2 := h c (List.mem_cons_self ..)
    simp only [List.map_cons, List.sum_cons]
    rcases List.mem_cons.1 ha with e | hm
    · subst e; omega
    · have := ih (fun b hb => h b (List.mem_cons_of_mem _ hb)) hm; omega

/-- A part of a round. -/
structure Ran (f : Fn) (rs : List Nat) (s : Sets) (c : Bool) (t : Sets) (d : Bool) : Prop where
  inv : Inv f t
  inn : ∀ b, ∀ q ∈ s.inn b, q ∈ t.inn b
  out : ∀ b, ∀ q ∈ s.out b, q ∈ t.out b
  flag : d = true → c = true ∨ ∃ b ∈ rs, (s.inn b).length < (t.inn b).length
  stay : d = false → c = false ∧ ∀ b, ∀ q ∈ t.inn b, q ∈ s.inn b
  done : ∀ b ∈ rs, ∀ q, q ∈ t.out b ↔ (q ∈ t.inn b ∨ q ∈ gens f b) ∧ q ∉ kills f b
  other : ∀ b, b ∉ rs → t.inn b = s.inn b ∧ t.out b = s.out b

theorem upgrade {l m : List Nat} (hl : l.Nodup) (hm : m.Nodup) (h : ∀ x ∈ l, x ∈ m) (hle : m.length ≤ l.length) : ∀ x ∈ m, x ∈ l := by
  intro x hx
  by_cases hxl : x ∈ l
  · exact hxl
  · exfalso
    have := nodup_sub_length (l := x :: l) (m := m) (List.nodup_cons.2 ⟨hxl, hl⟩) (by simpa [hx] using h)
    simp only [List.length_cons] at this; omega

theorem rev_ind {P : List Nat → Prop} (nil : P []) (app : ∀ l b, P l → P (l ++ [b])) (l : List Nat) : P l := by
  have : ∀ (m : List Nat), P m.reverse := by
    intro m
    induction m with
    | nil => exact nil
    | cons b m ih => rw [List.reverse_cons]; exact app _ b ih
  simpa using this l.reverse

theorem ran (f : Fn) : ∀ (rs : List Nat) (s : Sets) (c : Bool), Inv f s → Ran f rs s c (rs.foldl (visit f) (s, c)).1 (rs.foldl (visit f) (s, c)).2 := by
  intro rs
  refine rev_ind (P := fun rs => ∀ (s : Sets) (c : Bool), Inv f s → Ran f rs s c (rs.foldl (visit f) (s, c)).1 (rs.foldl (visit f) (s, c)).2) ?_ ?_ rs
  · intro s c h
    exact ⟨h, fun _ _ hq => hq, fun _ _ hq => hq, fun h => .inl h, fun h => ⟨h, fun _ _ hq => hq⟩, by simp, by simp⟩
  · intro rs b ih s c h
    simp only [List.foldl_append, List.foldl_cons, List.foldl_nil]
    have R := ih s c h
    generalize he : rs.foldl (visit f) (s, c) = tc at R ⊢
    obtain ⟨t, d⟩ := tc
    simp only at R ⊢
    have V := visit_mono R.inv d b
    have VI := visit_inv R.inv d b
    have hfl : (visit f (t, d) b).2 = (d || !equalSet (t.inn b) ((visit f (t, d) b).1.inn b)) := by simp [visit, upd_same]
    refine ⟨VI, fun e q hq => V.1 e q (R.inn e q hq), fun e q hq => V.2 e q (R.out e q hq), ?_, ?_, ?_, ?_⟩
    · intro hd
      rw [hfl, Bool.or_eq_true] at hd
      rcases hd with hd | hd
      · rcases R.flag hd with h1 | ⟨e, he, h1⟩
        · exact .inl h1
        · refine .inr ⟨e, List.mem_append_left _ he, Nat.lt_of_lt_of_le h1 ?_⟩
          exact nodup_sub_length (R.inv.nodupI e) fun q hq => V.1 e q hq
      · refine .inr ⟨b, by simp, Nat.lt_of_le_of_lt ?_ ((equalSet_iff (R.inv.nodupI b) (V.1 b) (VI.nodupI b)).1 (by simpa using hd))⟩
        exact nodup_sub_length (h.nodupI b) (R.inn b)
    · intro hd
      rw [hfl, Bool.or_eq_false_iff] at hd
      obtain ⟨h1, h2⟩ := R.stay hd.1
      refine ⟨h1, fun e q hq => h2 e q ?_⟩
      by_cases heb : e = b
      · subst heb
        refine upgrade (R.inv.nodupI e) (VI.nodupI e) (V.1 e) ?_ q hq
        have := (equalSet_iff (R.inv.nodupI e) (V.1 e) (VI.nodupI e)).not
        have h3 : equalSet (t.inn e) ((visit f (t, d) e).1.inn e) = true := by simpa using hd.2
        rw [h3] at this
        have := this.1 (by simp)
        omega
      · simpa only [visit_fst, upd_ne _ _ heb] using hq
    · intro e he q
      by_cases heb : e = b
      · subst heb
        simp only [visit_fst, upd_same]
        exact mem_outOf
      · have : e ∈ rs := by simpa [heb] using he
        simp only [visit_fst, upd_ne _ _ heb]
        exact R.done e this q
    · intro e he
      have h1 : e ≠ b := fun h => he (by simp [h])
      have h2 : e ∉ rs := fun h => he (by simp [h])
      simp only [visit_fst, upd_ne _ _ h1]
      exact R.other e h2

/-! ## The loop ends -/

theorem round_size {rs : List Nat} {f : Fn} {s : Sets} (h : Inv f s) (hc : (round rs f s).2 = true) : size rs s < size rs (round rs f s).1 := by
  have R := ran f rs s false h
  rcases R.flag hc with h1 | ⟨b, hb, h1⟩
  · cases h1
  · exact sum_lt (fun e _ => nodup_sub_length (h.nodupI e) (R.inn e)) hb h1

/-- All sets are made of reservations. -/
def Small (G : List Nat) (s : Sets) : Prop := ∀ b, (∀ q ∈ s.inn b, q ∈ G) ∧ ∀ q ∈ s.out b, q ∈ G

theorem small_visit {G : List Nat} {f : Fn} {s : Sets} (c : Bool) {b : Nat} (hb : ∀ q ∈ gens f b, q ∈ G) (h : Small G s) : Small G (visit f (s, c) b).1 := by
  have hm : ∀ q ∈ meet s (f.preds b), q ∈ G := by
    intro q hq
    obtain ⟨h1, h2⟩ := mem_meet.1 hq
    obtain ⟨p, ps, e⟩ := List.exists_cons_of_ne_nil h1
    exact (h p).2 q (h2 p (by rw [e]; simp))
  intro d
  by_cases e : d = b
  · subst e
    simp only [visit_fst, upd_same]
    exact ⟨hm, fun q hq => (mem_outOf.1 hq).1.elim (hm q) (hb q)⟩
  · simp only [visit_fst, upd_ne _ _ e]
    exact h d

theorem small_fold {G : List Nat} {f : Fn} : ∀ (rs : List Nat) {s : Sets} {c : Bool}, (∀ b ∈ rs, ∀ q ∈ gens f b, q ∈ G) → Small G s →
    Small G (rs.foldl (visit f) (s, c)).1 := by
  intro rs
  induction rs with
  | nil => intro s c _ h; exact h
  | cons b rs ih =>
    intro s c hb h
    exact ih (s := (visit f (s, c) b).1) (c := (visit f (s, c) b).2) (fun d hd => hb d (List.mem_cons_of_mem _ hd)) (small_visit c (hb b (List.mem_cons_self ..)) h)

theorem small_size {G : List Nat} {f : Fn} {s : Sets} {rs : List Nat} (h : Inv f s) (hs : Small G s) : size rs s ≤ rs.length * G.length := by
  have := sum_le (l := rs) (u := fun b => (s.inn b).length) (v := fun _ => G.length) fun b _ => nodup_sub_length (h.nodupI b) (hs b).1
  simpa [size] using this

theorem solve_ends_aux {rs : List Nat} {f : Fn} : ∀ (n : Nat) {s : Sets}, Inv f s → Small (rs.flatMap (gens f)) s →
    rs.length * (rs.flatMap (gens f)).length < size rs s + n → ∃ t, solve rs f n s = some t := by
  intro n
  induction n with
  | zero =>
    intro s h hs hn
    have := small_size (rs := rs) h hs
    omega
  | succ n ih =>
    intro s h hs hn
    simp only [solve]
    split
    · rename_i hc
      have hlt := round_size h hc
      have hG : ∀ b ∈ rs, ∀ q ∈ gens f b, q ∈ rs.flatMap (gens f) := fun b hb q hq => List.mem_flatMap.2 ⟨b, hb, hq⟩
      exact ih (ran f rs s false h).inv (small_fold rs hG hs) (by omega)
    · exact ⟨_, rfl⟩

/-- The loop ends in the given number of rounds. -/
theorem solve_ends (rs : List Nat) (f : Fn) : ∃ t, solve rs f (rounds rs f) start = some t :=
  solve_ends_aux _ (start_inv f) (fun b => by simp [start]) (by unfold rounds; omega)

/-- More rounds do not change the result. -/
theorem solve_more {rs : List Nat} {f : Fn} : ∀ (n m : Nat) {s t : Sets}, solve rs f n s = some t → solve rs f (n + m) s = some t := by
  intro n m
  induction n with
  | zero => intro s t h; cases h
  | succ n ih =>
    intro s t h
    rw [Nat.succ_add]
    simp only [solve] at h ⊢
    split
    · rename_i hc; rw [if_pos hc] at h; exact ih h
    · rename_i hc; rw [if_neg hc] at h; exact h

/-! ## The result -/

/-- The last round of the loop, and what was there before. -/
theorem solve_last {rs : List Nat} {f : Fn} : ∀ (n : Nat) {s t : Sets}, Inv f s → solve rs f n s = some t →
    ∃ s0, Inv f s0 ∧ Ran f rs s0 false t false ∧ t = (rs.foldl (visit f) (s0, false)).1 ∧
      (s0 = s ∨ ∃ s1, Inv f s1 ∧ Ran f rs s1 false s0 true) := by
  intro n
  induction n with
  | zero => intro s t _ h; cases h
  | succ n ih =>
    intro s t hi h
    have R := ran f rs s false hi
    simp only [solve] at h
    split at h
    · rename_i hc
      obtain ⟨s0, h1, h2, h3, h4⟩ := ih R.inv h
      refine ⟨s0, h1, h2, h3, .inr ?_⟩
      rcases h4 with rfl | h4
      · refine ⟨s, hi, ?_⟩
        have : (rs.foldl (visit f) (s, false)).2 = true := hc
        rw [this] at R
        exact R
      · exact h4
    · rename_i hc
      cases h
      have : (rs.foldl (visit f) (s, false)).2 = false := by simpa [round] using hc
      rw [this] at R
      exact ⟨s, hi, R, rfl, .inl rfl⟩

/-- A block with one block before it comes after that one. -/
def Sorted (f : Fn) (rs : List Nat) : Prop := ∀ A b B p, rs = A ++ b :: B → f.preds b = [p] → p ∈ A

theorem solve_inv {rs : List Nat} {f : Fn} {n : Nat} {t : Sets} (h : solve rs f n start = some t) : Inv f t := by
  obtain ⟨s0, _, R, _⟩ := solve_last n (start_inv f) h
  exact R.inv

/-- The analysis finds what is kept. -/
theorem solve_kept {rs : List Nat} {f : Fn} {n : Nat} {t : Sets} (hn : rs.Nodup) (hp : ∀ b ∈ rs, (f.preds b).Nodup ∧ ∀ p ∈ f.preds b, p ∈ rs)
    (hu : ∀ a ∈ rs, ∀ b ∈ rs, ∀ x ∈ f.body a, x ∈ f.body b → a = b) (hso : Sorted f rs) (h : solve rs f n start = some t) {q b : Nat}
    (hk : Kept f q b) : b ∈ rs → q ∈ t.out b := by
  obtain ⟨s0, hi0, R, hlast, hprev⟩ := solve_last n (start_inv f) h
  induction hk with
  | here h1 h2 h3 => intro hb; exact (R.done _ hb _).2 ⟨.inr (mem_gens.2 ⟨h1, h2⟩), not_kills.2 h3⟩
  | @join b h1 h2 h3 ih =>
    intro hb
    have ih' : ∀ p ∈ f.preds b, q ∈ t.out p := fun p hpp => ih p hpp ((hp b hb).2 p hpp)
    refine (R.done b hb q).2 ⟨.inl ?_, not_kills.2 h3⟩
    -- the moment of the visit
    obtain ⟨A, B, hAB⟩ := List.append_of_mem hb
    have hA := ran f A s0 false hi0
    have hbA : b ∉ A := by rw [hAB] at hn; exact fun hm => (List.nodup_append.1 hn).2.2 b hm b (List.mem_cons_self ..) rfl
    have hbB : b ∉ B := by rw [hAB] at hn; exact (List.nodup_cons.1 (List.nodup_append.1 hn).2.1).1
    rw [hAB, List.foldl_append, List.foldl_cons] at hlast
    generalize he : A.foldl (visit f) (s0, false) = uc at hA hlast
    obtain ⟨u, c⟩ := uc
    simp only at hA
    have hV := ran f B (visit f (u, c) b).1 (visit f (u, c) b).2 (visit_inv hA.inv c b)
    have htb : t.inn b = meet u (f.preds b) := by
      have := (hV.other b hbB).1
      rw [hlast, show (B.foldl (visit f) (visit f (u, c) b)).1.inn b = _ from this, visit_fst]
      exact upd_same ..
    have hpre : ∀ p ∈ A, u.out p = t.out p := by
      intro p hpA
      have h5 : p ∉ B := by rw [hAB] at hn; exact fun hm => (List.nodup_append.1 hn).2.2 p hpA p (List.mem_cons_of_mem _ hm) rfl
      have h6 : p ≠ b := fun e => hbA (e ▸ hpA)
      have := (hV.other p h5).2
      rw [hlast, show (B.foldl (visit f) (visit f (u, c) b)).1.out p = _ from this, visit_fst]
      exact (upd_ne _ _ h6).symm
    rcases hprev with hst | ⟨s1, hi1, R1⟩
    · -- the first round is the last
      have hempty : ∀ d, t.inn d = [] := by
        intro d
        cases hd : t.inn d with
        | nil => rfl
        | cons z zs =>
          have := (R.stay rfl).2 d z (by rw [hd]; simp)
          rw [hst] at this
          simp [start] at this
      have hg : ∀ p ∈ f.preds b, q ∈ f.body p := by
        intro p hpp
        have := (R.done p ((hp b hb).2 p hpp) q).1 (ih' p hpp)
        rcases this.1 with h7 | h7
        · rw [hempty p] at h7; cases h7
        · exact (mem_gens.1 h7).1
      obtain ⟨p, ps, hps⟩ := List.exists_cons_of_ne_nil h1
      have hps' : ps = [] := by
        cases ps with
        | nil => rfl
        | cons p2 ps =>
          exfalso
          have h8 : p2 ∈ f.preds b := by rw [hps]; simp
          have h9 : p ∈ f.preds b := by rw [hps]; simp
          have := hu p ((hp b hb).2 p h9) p2 ((hp b hb).2 p2 h8) q (hg p h9) (hg p2 h8)
          have hnd := (hp b hb).1
          rw [hps, this] at hnd
          simp at hnd
      subst hps'
      have hpA := hso A b B p hAB hps
      rw [htb, mem_meet]
      refine ⟨h1, fun p' hp' => ?_⟩
      rw [hps] at hp'
      have : p' = p := by simpa using hp'
      subst this
      rw [hpre p' hpA]
      exact ih' p' (by rw [hps]; simp)
    · rw [htb, mem_meet]
      refine ⟨h1, fun p hpp => ?_⟩
      have hprs := (hp b hb).2 p hpp
      -- out is what it was before the round
      have h7 := (R.done p hprs q).1 (ih' p hpp)
      have h8 : q ∈ s0.out p := (R1.done p hprs q).2 ⟨h7.1.imp ((R.stay rfl).2 p q) id, h7.2⟩
      exact hA.out p q h8

end Verif.Throw
