import Verif.Dead.Model
import Verif.IR.Erase
import Verif.Spec.Dead
/-!
# Lemmas about the optimisation pass
-/
namespace Verif.Dead
open Verif Verif.IR Verif.Edit

theorem effect_eq (o : Op) : effect o = (isVoid o || o = .call) := by cases o <;> rfl

theorem straight_of {o : Op} (h : effect o = false) : straight o = true ∧ o ≠ .store ∧ o ≠ .storeraw ∧ o ≠ .call := by
  cases o <;> revert h <;> decide

/-- `g` is `f` without some instructions that have no effect of their own and that nobody left uses. -/
structure Cut (rs : List Nat) (f g : Fn) : Prop where
  ok : Ok g
  insn : g.insn = f.insn
  allBbs : g.allBbs = f.allBbs
  entry : g.entry = f.entry
  args : g.args = f.args
  sp : g.sp = f.sp
  succs : g.succs = f.succs
  preds : g.preds = f.preds
  body : ∃ D : Nat → Bool, (∀ b, g.body b = (f.body b).filter (fun x => !D x)) ∧
    ∀ x, D x = true → effect (f.insn x).op = false ∧ ∃ b ∈ rs, x ∈ f.body b
  pres : ∀ W σ, Preserves W f g σ

theorem Cut.refl {rs : List Nat} {f : Fn} (h : Ok f) : Cut rs f f :=
  ⟨h, rfl, rfl, rfl, rfl, rfl, rfl, rfl, ⟨fun _ => false, fun b => (List.filter_eq_self.2 (fun _ _ => rfl)).symm, fun x hx => by cases hx⟩, fun W σ => .refl W f σ⟩

theorem Cut.trans {rs : List Nat} {f g k : Fn} (h1 : Cut rs f g) (h2 : Cut rs g k) : Cut rs f k := by
  obtain ⟨D, hD, hD'⟩ := h1.body
  obtain ⟨E, hE, hE'⟩ := h2.body
  refine ⟨h2.ok, h2.insn.trans h1.insn, h2.allBbs.trans h1.allBbs, h2.entry.trans h1.entry, h2.args.trans h1.args, h2.sp.trans h1.sp,
    h2.succs.trans h1.succs, h2.preds.trans h1.preds, ⟨fun x => D x || E x, fun b => ?_, fun x hx => ?_⟩, fun W σ => (h1.pres W σ).trans (h2.pres W σ)⟩
  · rw [hE, hD, List.filter_filter]
    congr 1
    funext x
    dsimp only
    cases D x <;> cases E x <;> rfl
  · rw [Bool.or_eq_true] at hx
    rcases hx with hx | hx
    · exact hD' x hx
    · obtain ⟨e1, b, hb, hm⟩ := hE' x hx
      rw [h1.insn] at e1
      rw [hD, List.mem_filter] at hm
      exact ⟨e1, b, hb, hm.1⟩

theorem cut_erase {rs : List Nat} {f g : Fn} {x b : Nat} (hf : Ok f) (hb : b ∈ rs) (hrs : ∀ b ∈ rs, b ∈ f.allBbs) (hx : x ∈ f.body b)
    (he : effect (f.insn x).op = false) (h : erase f x = .ok g) : Cut rs f g := by
  have hin : InBody f x := ⟨b, hrs b hb, hx⟩
  obtain ⟨_, hs, _⟩ := erase_spec h
  obtain ⟨s1, s2, s3, s4⟩ := straight_of he
  refine ⟨erase_ok hf hin h, hs.insn, hs.allBbs, hs.entry, hs.args, hs.sp, hs.succs, hs.preds,
    ⟨fun y => decide (y = x), erase_filter hf hin h, fun y hy => ?_⟩, fun W σ => erase_preserves hf hin h s1 s2 s3 s4 σ⟩
  have : y = x := by simpa using hy
  subst this
  exact ⟨he, b, hb, hx⟩

/-- Number of instructions in the blocks `rs`. -/
def total (f : Fn) : List Nat → Nat
  | [] => 0
  | b :: bs => (f.body b).length + total f bs

theorem total_le {f g : Fn} (h : ∀ b, (g.body b).length ≤ (f.body b).length) : ∀ rs, total g rs ≤ total f rs
  | [] => Nat.le_refl _
  | b :: bs => by have := total_le h bs; have := h b; simp only [total]; omega

theorem total_lt {f g : Fn} (h : ∀ b, (g.body b).length ≤ (f.body b).length) {b : Nat} (hb : (g.body b).length < (f.body b).length) :
    ∀ rs, b ∈ rs → total g rs < total f rs
  | [], hm => by cases hm
  | c :: cs, hm => by
    have h1 := total_le h cs
    have h2 := h c
    simp only [total]
    rcases List.mem_cons.1 hm with rfl | hm
    · omega
    · have := total_lt h hb cs hm; omega

theorem Cut.le {rs : List Nat} {f g : Fn} (h : Cut rs f g) (b : Nat) : (g.body b).length ≤ (f.body b).length := by
  obtain ⟨D, hD, _⟩ := h.body
  rw [hD]; exact List.length_filter_le ..

theorem erase_lt {f g : Fn} {x b : Nat} (hf : Ok f) (hb : b ∈ f.allBbs) (hx : x ∈ f.body b) (h : erase f x = .ok g) :
    (g.body b).length < (f.body b).length := by
  rw [erase_filter hf ⟨b, hb, hx⟩ h]
  have := List.length_filter_le (fun y => !decide (y = x)) (f.body b)
  rcases Nat.lt_or_eq_of_le this with h1 | h1
  · exact h1
  · have := List.length_filter_eq_length_iff.1 h1 x hx
    simp at this

theorem erase_nil {f : Fn} {x : Nat} (h : f.users x = []) : ∃ g, erase f x = .ok g := by
  unfold erase
  rw [h]
  exact ⟨_, rfl⟩

theorem removable_iff {f : Fn} {x : Nat} : removable f x = true ↔ effect (f.insn x).op = false ∧ f.users x = [] := by
  unfold removable
  rw [← effect_eq]
  simp

/-- The inner loop. -/
theorem sweep_ok {rs : List Nat} {b : Nat} (hb : b ∈ rs) : ∀ (xs : List Nat) (c : Bool) (f : Fn), Ok f → (∀ b ∈ rs, b ∈ f.allBbs) →
    xs.Nodup → (∀ x ∈ xs, x ∈ f.body b) →
    ∃ c' g, sweep xs (c, f) = .ok (c', g) ∧ Cut rs f g ∧ (c' = true → c = true ∨ total g rs < total f rs) ∧
      (c = true → c' = true) ∧ (c' = false → g = f ∧ ∀ x ∈ xs, removable f x = false)
  | [], c, f, hf, _, _, _ => ⟨c, f, rfl, .refl hf, fun h => .inl h, id, fun h => ⟨rfl, by simp⟩⟩
  | x :: xs, c, f, hf, hrs, hn, hm => by
    have hn' := List.nodup_cons.1 hn
    simp only [sweep]
    cases hr : removable f x with
    | false =>
      obtain ⟨c', g, h1, h2, h3, h4, h5⟩ := sweep_ok hb xs c f hf hrs hn'.2 (fun y hy => hm y (by simp [hy]))
      refine ⟨c', g, by simpa using h1, h2, h3, h4, fun h => ⟨(h5 h).1, fun y hy => ?_⟩⟩
      rcases List.mem_cons.1 hy with rfl | hy
      · exact hr
      · exact (h5 h).2 y hy
    | true =>
      obtain ⟨he, hu⟩ := removable_iff.1 hr
      obtain ⟨f1, h0⟩ := erase_nil hu
      have hx : x ∈ f.body b := hm x (by simp)
      have hc := cut_erase hf hb hrs hx he h0
      have hlt := total_lt hc.le (erase_lt hf (hrs b hb) hx h0) rs hb
      obtain ⟨c', g, h1, h2, h3, h4, h5⟩ := sweep_ok hb xs true f1 hc.ok (by rw [hc.allBbs]; exact hrs) hn'.2 (fun y hy => by
        rw [erase_filter hf ⟨b, hrs b hb, hx⟩ h0, List.mem_filter]
        refine ⟨hm y (by simp [hy]), ?_⟩
        simp only [Bool.not_eq_true', decide_eq_false_iff_not]
        rintro rfl; exact hn'.1 hy)
      refine ⟨c', g, by simp only [if_true, h0]; exact h1, hc.trans h2, fun _ => .inr ?_, fun _ => h4 rfl, fun h => ?_⟩
      · have := total_le h2.le rs; omega
      · rw [h4 rfl] at h; cases h

/-- The outer loop. -/
theorem sweepAll_ok {rs : List Nat} : ∀ (bs : List Nat) (c : Bool) (f : Fn), (∀ b ∈ bs, b ∈ rs) → Ok f → (∀ b ∈ rs, b ∈ f.allBbs) →
    ∃ c' g, sweepAll bs (c, f) = .ok (c', g) ∧ Cut rs f g ∧ (c' = true → c = true ∨ total g rs < total f rs) ∧
      (c = true → c' = true) ∧ (c' = false → g = f ∧ ∀ b ∈ bs, ∀ x ∈ f.body b, removable f x = false)
  | [], c, f, _, hf, _ => ⟨c, f, rfl, .refl hf, fun h => .inl h, id, fun h => ⟨rfl, by simp⟩⟩
  | b :: bs, c, f, hbs, hf, hrs => by
    have hb := hbs b (by simp)
    obtain ⟨c1, f1, h1, h2, h3, h4, h5⟩ := sweep_ok hb (f.body b) c f hf hrs (hf.tidy.nodup b (hrs b hb)) (fun x hx => hx)
    obtain ⟨c', g, k1, k2, k3, k4, k5⟩ := sweepAll_ok bs c1 f1 (fun b hb => hbs b (by simp [hb])) h2.ok (by rw [h2.allBbs]; exact hrs)
    refine ⟨c', g, by simp only [sweepAll, h1]; exact k1, h2.trans k2, fun h => ?_, fun h => k4 (h4 h), fun h => ?_⟩
    · have l1 := total_le k2.le rs
      have l2 := total_le h2.le rs
      rcases k3 h with e | e
      · rcases h3 e with e | e
        · exact .inl e
        · exact .inr (by omega)
      · exact .inr (by omega)
    · obtain ⟨e1, e2⟩ := k5 h
      have hc1 : c1 = false := by
        cases hc : c1 with
        | false => rfl
        | true => rw [k4 hc] at h; cases h
      obtain ⟨e3, e4⟩ := h5 hc1
      subst e3
      refine ⟨e1, fun d hd => ?_⟩
      rcases List.mem_cons.1 hd with rfl | hd
      · exact e4
      · exact e2 d hd

theorem removeNoUser_ok {rs : List Nat} : ∀ (k : Nat) (f : Fn), Ok f → (∀ b ∈ rs, b ∈ f.allBbs) → total f rs < k →
    ∃ g, removeNoUser rs k f = .ok g ∧ Cut rs f g ∧ ∀ b ∈ rs, ∀ x ∈ g.body b, removable g x = false
  | 0, f, _, _, h => by omega
  | k + 1, f, hf, hrs, h => by
    obtain ⟨c, g, h1, h2, h3, _, h5⟩ := sweepAll_ok rs false f (fun b hb => hb) hf hrs
    simp only [removeNoUser, h1]
    cases c with
    | false =>
      obtain ⟨rfl, e⟩ := h5 rfl
      exact ⟨g, rfl, .refl hf, e⟩
    | true =>
      have hlt : total g rs < total f rs := by
        rcases h3 rfl with e | e
        · cases e
        · exact e
      obtain ⟨g', k1, k2, k3⟩ := removeNoUser_ok k g h2.ok (by rw [h2.allBbs]; exact hrs) (by omega)
      exact ⟨g', k1, h2.trans k2, k3⟩

/-! ## Variables -/

/-- `g` is `f` without the instructions `D`. -/
structure Without (D : Nat → Bool) (f g : Fn) : Prop where
  ok : Ok g
  insn : g.insn = f.insn
  allBbs : g.allBbs = f.allBbs
  entry : g.entry = f.entry
  args : g.args = f.args
  sp : g.sp = f.sp
  succs : g.succs = f.succs
  preds : g.preds = f.preds
  body : ∀ b, g.body b = (f.body b).filter (fun x => !D x)
  pres : ∀ W σ, Preserves W f g σ

theorem Without.refl {f : Fn} (h : Ok f) : Without (fun _ => false) f f :=
  ⟨h, rfl, rfl, rfl, rfl, rfl, rfl, rfl, fun b => (List.filter_eq_self.2 (fun _ _ => rfl)).symm, fun W σ => .refl W f σ⟩

theorem Without.trans {D E : Nat → Bool} {f g k : Fn} (h1 : Without D f g) (h2 : Without E g k) : Without (fun x => D x || E x) f k := by
  refine ⟨h2.ok, h2.insn.trans h1.insn, h2.allBbs.trans h1.allBbs, h2.entry.trans h1.entry, h2.args.trans h1.args, h2.sp.trans h1.sp,
    h2.succs.trans h1.succs, h2.preds.trans h1.preds, fun b => ?_, fun W σ => (h1.pres W σ).trans (h2.pres W σ)⟩
  rw [h2.body, h1.body, List.filter_filter]
  congr 1
  funext x
  cases D x <;> cases E x <;> rfl

theorem Without.congr {D E : Nat → Bool} {f g : Fn} (h : Without D f g) (he : ∀ b, ∀ x ∈ f.body b, D x = E x) : Without E f g := by
  refine ⟨h.ok, h.insn, h.allBbs, h.entry, h.args, h.sp, h.succs, h.preds, fun b => ?_, h.pres⟩
  rw [h.body]
  exact List.filter_congr (fun x hx => by rw [he b x hx])

theorem without_erase {f g : Fn} {x : Nat} (hf : Ok f) (hin : InBody f x) (h : erase f x = .ok g)
    (hp : ∀ W σ, Preserves W f g σ) : Without (fun y => decide (y = x)) f g := by
  obtain ⟨_, hs, _⟩ := erase_spec h
  exact ⟨erase_ok hf hin h, hs.insn, hs.allBbs, hs.entry, hs.args, hs.sp, hs.succs, hs.preds, erase_filter hf hin h, hp⟩

theorem removeUsers_other {x y : Nat} : ∀ (l : List Val) (f : Fn), Val.insn y ∉ l →
    (l.foldl (fun f v => removeUser f v x) f).users y = f.users y
  | [], f, _ => rfl
  | v :: l, f, h => by
    simp only [List.mem_cons, not_or] at h
    rw [List.foldl_cons, removeUsers_other l _ h.2]
    cases v with
    | insn z =>
      have : y ≠ z := fun e => h.1 (by rw [e])
      simp [removeUser, upd, this]
    | const k c ct b => rfl
    | undef => rfl

theorem erase_other {f g : Fn} {x y : Nat} (h : erase f x = .ok g) (hr : refs (f.insn x) y = 0) : g.users y = f.users y := by
  unfold erase at h
  split at h
  · cases h
  · cases h
    refine removeUsers_other _ f ?_
    rw [refs_eq] at hr
    exact List.count_eq_zero.1 hr

theorem erase_empty {f g : Fn} {x y : Nat} (h : erase f x = .ok g) (he : f.users y = []) : g.users y = [] := by
  refine List.eq_nil_iff_forall_not_mem.2 fun z hz => ?_
  have h1 := List.count_pos_iff.2 hz
  rw [(erase_spec h).2.2 y z, he] at h1
  simp at h1

theorem store_preserves {W : World} {f g : Fn} {a s : Nat} (hf : Ok f) (ha : Live f a) (hs : InBody f s) (hu : f.users a = [s])
    (hop : (f.insn s).op = .store) {v : Val} (hv : (f.insn s).vals = [.insn a, v]) (h : erase f s = .ok g) (σ : St) : Preserves W f g σ := by
  obtain ⟨_, hsm, _⟩ := erase_spec h
  have S : Skips W f g (fun y => decide (y = s)) (fun _ _ => Agree (fun y => y ≠ a)) := by
    refine skips_agree (erase_filter hf hs h) hsm.entry hsm.succs hf.phis ?_ ?_
    · intro b u hub hd
      have hne : u ≠ s := by simpa using hd
      refine ⟨by rw [hsm.insn], reads_of_refs fun y hy => ?_⟩
      have : y = a := Classical.not_not.1 hy
      rw [this]
      have hb : b ∈ f.allBbs := Classical.byContradiction fun hn => by rw [hf.only b hn] at hub; cases hub
      refine Classical.byContradiction fun hr => hne ?_
      have := ((hf.users a ha).1 u (.inr (.inr ⟨b, hb, hub⟩))).2 (by omega)
      rw [hu] at this
      simpa using this
    · intro b u hub hd
      have hux : u = s := by simpa using hd
      subst hux
      refine ⟨(by rw [hop]; rfl), (fun he => by rw [hop] at he; cases he), fun σ τ _ he => ?_⟩
      obtain ⟨a', v', e1, e2, e3, e4, e5⟩ := exec_store he hop
      rw [hv] at e1
      have : a' = a := by injection e1 with e1 _; injection e1 with e1; exact e1.symm
      subst this
      exact ⟨fun y _ => by rw [e2], fun y hy => e5 y hy, e3, e4⟩
  exact S.preserves (fun _ _ σ σ' hr => ⟨hr.mem, hr.trace⟩) σ ⟨fun _ _ => rfl, fun _ _ => rfl, rfl, rfl⟩

/-- One variable with at most one store. -/
theorem dropAlloc_ok {f : Fn} {a : Nat} (hf : Ok f) (ha : InBody f a) (hfix : Fixed f) (hop : (f.insn a).op = .alloc) (hv : Variable f a)
    (hn : NoLoad f a) (h1 : (f.users a).length ≤ 1) :
    ∃ g, dropAlloc f a = .ok g ∧ Without (fun x => decide (x = a) || decide (x ∈ f.users a)) f g ∧
      (∀ y, refs (f.insn a) y = 0 → (∀ u ∈ f.users a, refs (f.insn u) y = 0) → g.users y = f.users y) ∧
      (∀ y, f.users y = [] → g.users y = []) := by
  have hany : (f.users a).any (fun u => (f.insn u).op = .load) = false := by
    rw [List.any_eq_false]
    intro u hu
    simpa using hn u hu
  have hst : effect (f.insn a).op = false := by rw [hop]; rfl
  obtain ⟨s1, s2, s3, s4⟩ := straight_of hst
  unfold dropAlloc
  rw [hany]
  match hu : f.users a with
  | [] =>
    obtain ⟨g, hg⟩ := erase_nil hu
    refine ⟨g, by simpa [dropUsers] using hg, ?_, fun y hy _ => erase_other hg hy, fun y hy => erase_empty hg hy⟩
    exact (without_erase hf ha hg (fun W σ => erase_preserves hf ha hg s1 s2 s3 s4 σ)).congr (fun b x _ => by simp)
  | [s] =>
    have hs : s ∈ f.users a := by rw [hu]; simp
    rcases hv s hs with h | ⟨hso, ⟨v, hvs, hva⟩, hsu⟩
    · exact absurd h.1 (hn s hs)
    · obtain ⟨g1, hg1⟩ := erase_nil hsu
      have hal : Live f a := .inr (.inr ha)
      have hr1 : refs (f.insn s) a = 1 := by
        have : ¬ (v == Val.insn a) = true := by simpa using hva
        simp [refs, hso, hvs, List.count_cons, this]
      have hsl : Live f s := (hf.users a hal).2 s hs
      have hsb : InBody f s := by
        rcases hsl with h | h | h
        · exact absurd hso (hfix s (.inl h))
        · exact absurd hso (hfix s (.inr h))
        · exact h
      have w1 := without_erase hf hsb hg1 (fun W σ => store_preserves hf hal hsb hu hso hvs hg1 σ)
      have ha1 : InBody g1 a := by
        obtain ⟨b, hb, hm⟩ := ha
        refine ⟨b, by rw [w1.allBbs]; exact hb, ?_⟩
        rw [w1.body, List.mem_filter]
        refine ⟨hm, ?_⟩
        have : a ≠ s := by rintro rfl; rw [hop] at hso; cases hso
        simpa using this
      have hu1 : g1.users a = [] := by
        have hc := (erase_spec hg1).2.2 a s
        rw [if_pos rfl, ← refs_eq, hr1, hu] at hc
        have hc2 := fun z (hz : z ≠ s) => (erase_spec hg1).2.2 a z
        refine List.eq_nil_iff_forall_not_mem.2 fun z hz => ?_
        have hz := List.count_pos_iff.2 hz
        by_cases e : z = s
        · subst e; simp at hc; omega
        · have := hc2 z e
          rw [if_neg e, hu] at this
          have h0 : List.count z [s] = 0 := List.count_eq_zero.2 (by simpa using e)
          omega
      obtain ⟨g, hg⟩ := erase_nil hu1
      have hop1 : (g1.insn a).op = .alloc := by rw [w1.insn, hop]
      have hst1 : effect (g1.insn a).op = false := by rw [hop1]; rfl
      obtain ⟨s1, s2, s3, s4⟩ := straight_of hst1
      have w2 := without_erase w1.ok ha1 hg (fun W σ => erase_preserves w1.ok ha1 hg s1 s2 s3 s4 σ)
      refine ⟨g, ?_, (w1.trans w2).congr (fun b x _ => by simp [Bool.or_comm]), fun y hy h2 => ?_, fun y hy => erase_empty hg (erase_empty hg1 hy)⟩
      · simp only [dropUsers, List.length_cons, List.length_nil, hu, List.getElem?_cons_zero, hg1]
        exact hg
      · rw [erase_other hg (by rw [w1.insn]; exact hy), erase_other hg1 (h2 s (by simp))]
  | _ :: _ :: _ => rw [hu] at h1; simp at h1

/-- What `dropAllocs` needs. -/
structure Vars (f : Fn) (as : List Nat) : Prop where
  nodup : as.Nodup
  body : ∀ a ∈ as, InBody f a
  op : ∀ a ∈ as, (f.insn a).op = .alloc
  var : ∀ a ∈ as, Variable f a
  one : ∀ a ∈ as, NoLoad f a → (f.users a).length ≤ 1

theorem refs_var {f : Fn} {a b u : Nat} (hf : Ok f) (hb : InBody f b) (hv : Variable f b) (hu : Live f u)
    (hr : 0 < refs (f.insn u) b) : ((f.insn u).op = .load ∨ (f.insn u).op = .store) ∧ ((f.insn u).vals.head? = some (.insn a) → a = b) := by
  have := ((hf.users b (.inr (.inr hb))).1 u hu).2 hr
  rcases hv u this with ⟨h1, h2⟩ | ⟨h1, ⟨v, h2, _⟩, _⟩
  · exact ⟨.inl h1, fun h => by rw [h2] at h; simpa using h.symm⟩
  · exact ⟨.inr h1, fun h => by rw [h2] at h; simpa using h.symm⟩

theorem noLoad_dec (f : Fn) (a : Nat) : (f.users a).any (fun u => (f.insn u).op = .load) = false ↔ NoLoad f a := by
  rw [List.any_eq_false]
  constructor <;> intro h u hu <;> have := h u hu <;> simpa using this

theorem dropAllocs_ok : ∀ (as : List Nat) (f : Fn), Ok f → Fixed f → Vars f as →
    ∃ D g, dropAllocs as f = .ok g ∧ Without D f g ∧ ∀ x, D x = true ↔ ∃ a ∈ as, NoLoad f a ∧ (x = a ∨ x ∈ f.users a)
  | [], f, hf, _, _ => ⟨_, f, rfl, .refl hf, fun x => by simp⟩
  | a :: as, f, hf, hfix, V => by
    have hnd := List.nodup_cons.1 V.nodup
    have hm : ∀ b ∈ as, b ∈ a :: as := fun b hb => by simp [hb]
    by_cases hn : NoLoad f a
    · obtain ⟨g, h1, h2, h3, h4⟩ := dropAlloc_ok hf (V.body a (by simp)) hfix (V.op a (by simp)) (V.var a (by simp)) hn (V.one a (by simp) hn)
      have hua : ∀ b ∈ as, refs (f.insn a) b = 0 := fun b hb => Classical.byContradiction fun hr => by
        have := (refs_var (a := a) hf (V.body b (hm b hb)) (V.var b (hm b hb)) (.inr (.inr (V.body a (by simp)))) (by omega)).1
        rw [V.op a (by simp)] at this
        rcases this with h | h <;> cases h
      have hus : ∀ b ∈ as, ∀ u ∈ f.users a, refs (f.insn u) b = 0 := fun b hb u hu => Classical.byContradiction fun hr => by
        have := (refs_var (a := a) hf (V.body b (hm b hb)) (V.var b (hm b hb)) ((hf.users a (.inr (.inr (V.body a (by simp))))).2 u hu) (by omega)).2
        have e := this (by
          rcases V.var a (by simp) u hu with h | ⟨_, ⟨v, h, _⟩, _⟩
          · rw [h.2]; rfl
          · rw [h]; rfl)
        rw [e] at hnd; exact hnd.1 hb
      have hub : ∀ b ∈ as, g.users b = f.users b := fun b hb => h3 b (hua b hb) (hus b hb)
      have hnl : ∀ b ∈ as, (NoLoad g b ↔ NoLoad f b) := fun b hb => by
        unfold NoLoad; rw [hub b hb, h2.insn]
      have V' : Vars g as := by
        refine ⟨hnd.2, fun b hb => ?_, fun b hb => by rw [h2.insn]; exact V.op b (hm b hb), fun b hb => ?_, fun b hb h => ?_⟩
        · obtain ⟨c, hc, hbc⟩ := V.body b (hm b hb)
          refine ⟨c, by rw [h2.allBbs]; exact hc, ?_⟩
          rw [h2.body, List.mem_filter]
          refine ⟨hbc, ?_⟩
          have e1 : b ≠ a := by rintro rfl; exact hnd.1 hb
          have e2 : b ∉ f.users a := fun h => by
            rcases V.var a (by simp) b h with h | h
            · rw [V.op b (hm b hb)] at h; cases h.1
            · rw [V.op b (hm b hb)] at h; cases h.1
          simp [e1, e2]
        · intro u hu
          rw [hub b hb] at hu
          rw [h2.insn]
          rcases V.var b (hm b hb) u hu with h | ⟨p, q, r⟩
          · exact .inl h
          · refine .inr ⟨p, q, ?_⟩
            exact h4 u r
        · rw [hub b hb]; exact V.one b (hm b hb) ((hnl b hb).1 h)
      obtain ⟨D, k, k1, k2, k3⟩ := dropAllocs_ok as g h2.ok (by unfold Fixed; rw [h2.insn, h2.sp, h2.args]; exact hfix) V'
      refine ⟨_, k, by simp only [dropAllocs, h1]; exact k1, h2.trans k2, fun x => ?_⟩
      rw [Bool.or_eq_true, Bool.or_eq_true, k3]
      constructor
      · rintro ((h | h) | ⟨b, hb, e1, e2⟩)
        · exact ⟨a, by simp, hn, .inl (by simpa using h)⟩
        · exact ⟨a, by simp, hn, .inr (by simpa using h)⟩
        · exact ⟨b, hm b hb, (hnl b hb).1 e1, by rw [hub b hb] at e2; exact e2⟩
      · rintro ⟨b, hb, e1, e2⟩
        rcases List.mem_cons.1 hb with rfl | hb
        · left; simpa using e2
        · right; exact ⟨b, hb, (hnl b hb).2 e1, by rw [hub b hb]; exact e2⟩
    · have hd : dropAlloc f a = .ok f := by
        unfold dropAlloc
        rw [if_pos]
        exact Bool.not_eq_false _ ▸ fun h => hn ((noLoad_dec f a).1 h)
      obtain ⟨D, k, k1, k2, k3⟩ := dropAllocs_ok as f hf hfix ⟨hnd.2, fun b hb => V.body b (hm b hb), fun b hb => V.op b (hm b hb),
        fun b hb => V.var b (hm b hb), fun b hb => V.one b (hm b hb)⟩
      refine ⟨D, k, by simp only [dropAllocs, hd]; exact k1, k2, fun x => ?_⟩
      rw [k3]
      constructor
      · rintro ⟨b, hb, h⟩; exact ⟨b, hm b hb, h⟩
      · rintro ⟨b, hb, h⟩
        rcases List.mem_cons.1 hb with rfl | hb
        · exact absurd h.1 hn
        · exact ⟨b, hb, h⟩

theorem removeUsers_erase {x y : Nat} : ∀ (l : List Val) (f : Fn), (l.foldl (fun f v => removeUser f v x) f).users y =
    (List.replicate (l.count (.insn y)) x).foldl List.erase (f.users y)
  | [], f => rfl
  | v :: l, f => by
    rw [List.foldl_cons, removeUsers_erase l]
    cases v with
    | insn z =>
      by_cases e : z = y
      · subst e
        simp [removeUser, upd, List.replicate_succ]
      · have e2 : y ≠ z := fun h => e h.symm
        have : ¬ (Val.insn z == Val.insn y) = true := by simpa using e
        simp [removeUser, upd, e2, e]
    | const k c ct b => simp [removeUser]
    | undef => simp [removeUser]

theorem erase_all_same {x : Nat} : ∀ (k : Nat) (l : List Nat), l.Nodup → x ∈ l → 0 < k →
    (List.replicate k x).foldl List.erase l = l.erase x
  | 0, _, _, _, h => by omega
  | 1, l, _, _, _ => rfl
  | k + 2, l, hn, hx, _ => by
    have hne : x ∉ l.erase x := by
      rw [List.Nodup.erase_eq_filter hn]; simp
    have key : ∀ (j : Nat) (l : List Nat), x ∉ l → (List.replicate j x).foldl List.erase l = l := by
      intro j
      induction j with
      | zero => intro l _; rfl
      | succ j ih => intro l hl; rw [List.replicate_succ, List.foldl_cons, List.erase_of_not_mem hl]; exact ih l hl
    rw [List.replicate_succ, List.foldl_cons]
    exact key _ _ hne

/-- The loop over the users never gets rid of the last one if there are two or more. -/
theorem dropUsers_left {a : Nat} : ∀ (k j : Nat) (f : Fn), (f.users a).Nodup →
    (∀ u ∈ f.users a, u ≠ a ∧ f.users u = [] ∧ 0 < refs (f.insn u) a) → 1 ≤ (f.users a).length → (j = 0 → 2 ≤ (f.users a).length) →
    ∃ g, dropUsers a k j f = .ok g ∧ g.insn = f.insn ∧ ∃ u, u ∈ g.users a ∧ u ≠ a
  | 0, j, f, hn, hu, h, h' => by
    match e : f.users a with
    | [] => rw [e] at h; simp at h
    | u :: us => exact ⟨f, rfl, rfl, u, by rw [e]; simp, (hu u (by rw [e]; simp)).1⟩
  | k + 1, j, f, hn, hu, h, h' => by
    simp only [dropUsers]
    cases e : (f.users a)[j]? with
    | none =>
      match e' : f.users a with
      | [] => rw [e'] at h; simp at h
      | u :: us => exact ⟨f, rfl, rfl, u, by rw [e']; simp, (hu u (by rw [e']; simp)).1⟩
    | some u =>
      have hm : u ∈ f.users a := List.mem_of_getElem? e
      obtain ⟨h1, h2, h3⟩ := hu u hm
      obtain ⟨g, hg⟩ := erase_nil h2
      have hgu : g.users a = (f.users a).erase u := by
        have := hg
        unfold erase at this
        rw [h2] at this
        simp only [List.any_nil, Bool.false_eq_true, if_false, Out.ok.injEq] at this
        subst this
        dsimp only
        rw [removeUsers_erase]
        refine erase_all_same _ _ hn hm ?_
        rw [refs_eq] at h3; exact h3
      have hi : g.insn = f.insn := (erase_spec hg).2.1.insn
      have hlen : (g.users a).length = (f.users a).length - 1 := by rw [hgu, List.length_erase_of_mem hm]
      have hj : j < (f.users a).length := (List.getElem?_eq_some_iff.1 e).1
      obtain ⟨k', r1, r2, r3⟩ := dropUsers_left k (j + 1) g (by rw [hgu]; exact hn.erase u) (fun w hw => by
        rw [hgu] at hw
        obtain ⟨p1, p2, p3⟩ := hu w (List.mem_of_mem_erase hw)
        exact ⟨p1, erase_empty hg p2, by rw [hi]; exact p3⟩) (by omega) (by omega)
      exact ⟨k', by simp only [hg]; exact r1, r2.trans hi, r3⟩

theorem dropAlloc_err {f : Fn} {a : Nat} (hn : NoLoad f a) (hd : (f.users a).Nodup)
    (hu : ∀ u ∈ f.users a, u ≠ a ∧ f.users u = [] ∧ 0 < refs (f.insn u) a) (h2 : 2 ≤ (f.users a).length) : dropAlloc f a = .err := by
  obtain ⟨g, h1, _, u, hu, hne⟩ := dropUsers_left (f.users a).length 0 f hd hu (by omega) (fun _ => h2)
  unfold dropAlloc
  rw [(noLoad_dec f a).2 hn, if_neg (by simp), h1]
  dsimp only
  unfold erase
  rw [if_pos]
  rw [List.any_eq_true]
  exact ⟨u, hu, by simpa using hne⟩

end Verif.Dead
