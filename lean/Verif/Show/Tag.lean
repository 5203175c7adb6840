import Verif.Show.Model
import Verif.Spec.Trail
/-!
# Numbers of blocks and instructions
-/
namespace Verif.Show
open Verif Verif.IR Verif.Edit

variable {f : Fn}

/-- Later numbers: what has a number has one still, and blocks keep theirs. -/
structure Ext (t u : Tags) : Prop where
  id : ∀ x, (t.id x).isSome = true → (u.id x).isSome = true
  bid : ∀ b k, t.bid b = some k → u.bid b = some k

theorem Ext.refl (t : Tags) : Ext t t := ⟨fun _ h => h, fun _ _ h => h⟩
theorem Ext.trans {t u v : Tags} (h : Ext t u) (h' : Ext u v) : Ext t v := ⟨fun x k => h'.id x (h.id x k), fun b k e => h'.bid b k (h.bid b k e)⟩

/-- No number is used twice. -/
structure Once (f : Fn) (t : Tags) : Prop where
  id : ∀ x y k, t.id x = some k → t.id y = some k → x = y
  small : ∀ x k, t.id x = some k → k < t.cnt ∧ isVoid (f.insn x).op = false
  bid : ∀ b c k, t.bid b = some k → t.bid c = some k → b = c
  bsmall : ∀ b k, t.bid b = some k → k < t.bcnt
  /-- instructions of numbered blocks have numbers -/
  all : ∀ b, (t.bid b).isSome = true → ∀ x ∈ f.body b, isVoid (f.insn x).op = false → (t.id x).isSome = true

theorem tagInsns_ext (xs : List Nat) (t : Tags) : Ext t (tagInsns f xs t) ∧ (tagInsns f xs t).bid = t.bid ∧ (tagInsns f xs t).bcnt = t.bcnt := by
  induction xs generalizing t with
  | nil => exact ⟨.refl t, rfl, rfl⟩
  | cons x xs ih =>
    simp only [tagInsns]
    split
    · exact ih t
    · obtain ⟨a, b, c⟩ := ih { t with id := upd t.id x (some t.cnt), cnt := t.cnt + 1 }
      refine ⟨Ext.trans (u := { t with id := upd t.id x (some t.cnt), cnt := t.cnt + 1 }) ⟨fun y h => ?_, fun _ _ h => h⟩ a, b, c⟩
      show (upd t.id x (some t.cnt) y).isSome = true
      unfold upd
      split
      · rfl
      · exact h

/-- The part of `Once` about instructions. -/
def OnceI (f : Fn) (t : Tags) : Prop := (∀ x y k, t.id x = some k → t.id y = some k → x = y) ∧ ∀ x k, t.id x = some k → k < t.cnt ∧ isVoid (f.insn x).op = false

theorem tagInsns_once (xs : List Nat) {t : Tags} (h : OnceI f t) : OnceI f (tagInsns f xs t) ∧ ∀ x ∈ xs, isVoid (f.insn x).op = false → ((tagInsns f xs t).id x).isSome = true := by
  induction xs generalizing t with
  | nil => exact ⟨h, by simp⟩
  | cons x xs ih =>
    simp only [tagInsns]
    split
    · next hv =>
      obtain ⟨a, b⟩ := ih h
      refine ⟨a, fun y hy k => ?_⟩
      rcases List.mem_cons.1 hy with rfl | hy
      · rw [hv] at k; cases k
      · exact b y hy k
    · next hv =>
      have h' : OnceI f { t with id := upd t.id x (some t.cnt), cnt := t.cnt + 1 } := by
        refine ⟨fun y z k e e' => ?_, fun y k e => ?_⟩
        · dsimp only at e e'
          unfold upd at e e'
          split at e <;> split at e'
          · next a b => rw [a, b]
          · injection e with e
            have := (h.2 z k e').1
            omega
          · injection e' with e'
            have := (h.2 y k e).1
            omega
          · exact h.1 y z k e e'
        · dsimp only at e ⊢
          unfold upd at e
          split at e
          · next a =>
            injection e with e
            rw [a]
            exact ⟨by omega, by simpa using hv⟩
          · have := h.2 y k e
            exact ⟨by omega, this.2⟩
      obtain ⟨a, b⟩ := ih h'
      refine ⟨a, fun y hy k => ?_⟩
      rcases List.mem_cons.1 hy with rfl | hy
      · refine (tagInsns_ext xs _).1.id y ?_
        simp [upd]
      · exact b y hy k

/-- What is done for a block before its successors are visited. -/
def mark (f : Fn) (b : Nat) (t : Tags) : Tags := tagInsns f (f.body b) { t with bid := upd t.bid b (some t.bcnt), bcnt := t.bcnt + 1 }

theorem mark_bid (b : Nat) (t : Tags) : (mark f b t).bid = upd t.bid b (some t.bcnt) := (tagInsns_ext _ _).2.1

theorem mark_ext {b : Nat} {t : Tags} (hb : t.bid b = none) : Ext t (mark f b t) := by
  refine Ext.trans (u := { t with bid := upd t.bid b (some t.bcnt), bcnt := t.bcnt + 1 }) ⟨fun _ h => h, fun c k e => ?_⟩ (tagInsns_ext _ _).1
  show upd t.bid b (some t.bcnt) c = some k
  unfold upd
  split
  · next h => rw [h, hb] at e; cases e
  · exact e

theorem mark_once {b : Nat} {t : Tags} (hb : t.bid b = none) (h : Once f t) : Once f (mark f b t) := by
  have h0 : OnceI f { t with bid := upd t.bid b (some t.bcnt), bcnt := t.bcnt + 1 } := ⟨h.id, h.small⟩
  obtain ⟨a, c⟩ := tagInsns_once (f.body b) h0
  obtain ⟨-, p, q⟩ := tagInsns_ext (f := f) (f.body b) { t with bid := upd t.bid b (some t.bcnt), bcnt := t.bcnt + 1 }
  refine ⟨a.1, a.2, fun d e k h1 h2 => ?_, fun d k h1 => ?_, fun d h1 x hx hv => ?_⟩
  · rw [mark_bid] at h1 h2
    unfold upd at h1 h2
    split at h1 <;> split at h2
    · next a b => rw [a, b]
    · injection h1 with h1
      have := h.bsmall e k h2
      omega
    · injection h2 with h2
      have := h.bsmall d k h1
      omega
    · exact h.bid d e k h1 h2
  · show k < (tagInsns f _ _).bcnt
    rw [q]
    rw [mark_bid] at h1
    unfold upd at h1
    dsimp only
    split at h1
    · injection h1 with h1; omega
    · have := h.bsmall d k h1; omega
  · rw [mark_bid] at h1
    unfold upd at h1
    split at h1
    · next e => subst e; exact c x hx hv
    · exact (mark_ext hb).id x (h.all d h1 x hx hv)

/-- What a visit does. -/
structure Visit (f : Fn) (b : Nat) (t u : Tags) : Prop where
  ext : Ext t u
  here : (u.bid b).isSome = true
  closed : ∀ c, (u.bid c).isSome = true → t.bid c = none → ∀ d ∈ f.succs c, (u.bid d).isSome = true
  once : Once f t → Once f u

/-- What visiting several blocks does. -/
structure Visits (f : Fn) (bs : List Nat) (t u : Tags) : Prop where
  ext : Ext t u
  here : ∀ b ∈ bs, (u.bid b).isSome = true
  closed : ∀ c, (u.bid c).isSome = true → t.bid c = none → ∀ d ∈ f.succs c, (u.bid d).isSome = true
  once : Once f t → Once f u

theorem Ext.some {t u : Tags} (h : Ext t u) {b : Nat} (hb : (t.bid b).isSome = true) : (u.bid b).isSome = true := by
  obtain ⟨k, e⟩ := Option.isSome_iff_exists.1 hb
  rw [h.bid b k e]; rfl

theorem visits {n : Nat} (ih : ∀ b t u, assign f n b t = some u → Visit f b t u) : ∀ (bs : List Nat) (t u : Tags), bs.foldlM (fun t c => assign f n c t) t = some u → Visits f bs t u
  | [], t, u, e => by
    simp only [List.foldlM_nil] at e
    cases e
    exact ⟨.refl t, by simp, fun c h h' => (by rw [h'] at h; cases h), id⟩
  | b :: bs, t, u, e => by
    rw [List.foldlM_cons] at e
    obtain ⟨v, e1, e2⟩ := Option.bind_eq_some_iff.1 e
    have h1 := ih b t v e1
    have h2 := visits ih bs v u e2
    refine ⟨h1.ext.trans h2.ext, fun c hc => ?_, fun c hc hn d hd => ?_, fun h => h2.once (h1.once h)⟩
    · rcases List.mem_cons.1 hc with rfl | hc
      · exact h2.ext.some h1.here
      · exact h2.here c hc
    · cases hv : v.bid c with
      | none => exact h2.closed c hc hv d hd
      | some k => exact h2.ext.some (h1.closed c (by rw [hv]; rfl) hn d hd)

theorem visit : ∀ (n b : Nat) (t u : Tags), assign f n b t = some u → Visit f b t u
  | 0, _, _, _, e => by cases e
  | n + 1, b, t, u, e => by
    simp only [assign] at e
    split at e
    · next hb =>
      cases e
      exact ⟨.refl t, hb, fun c h h' => (by rw [h'] at h; cases h), id⟩
    · next hb =>
      replace hb : t.bid b = none := by cases h : t.bid b with
        | none => rfl
        | some k => rw [h] at hb; exact absurd rfl hb
      have h := visits (visit n) (f.succs b) (mark f b t) u e
      have hh : ((mark f b t).bid b).isSome = true := by rw [mark_bid]; simp [upd]
      refine ⟨(mark_ext hb).trans h.ext, h.ext.some hh, fun c hc hn d hd => ?_, fun k => h.once (mark_once hb k)⟩
      by_cases e : c = b
      · subst e; exact h.here d hd
      · refine h.closed c hc ?_ d hd
        rw [mark_bid]
        unfold upd
        rw [if_neg e]; exact hn

theorem clean_once : Once f clean := ⟨fun _ _ _ e => (by cases e), fun _ _ e => (by cases e), fun _ _ _ e => (by cases e), fun _ _ e => (by cases e), fun _ e => (by cases e)⟩

/-- Numbers are unique, and every block that can be reached has one, and its instructions. -/
theorem tag_spec {t : Tags} (e : tag f = some t) : Once f t ∧ ∀ b, Conn f b → (t.bid b).isSome = true := by
  have h := visit _ _ _ _ e
  refine ⟨h.once clean_once, fun b hb => ?_⟩
  induction hb with
  | entry => exact h.here
  | step _ hm ih => exact h.closed _ ih rfl _ hm

/-- Blocks without a number. -/
def todo (f : Fn) (t : Tags) : Nat := f.allBbs.countP fun b => (t.bid b).isNone

theorem todo_ext {t u : Tags} (h : Ext t u) : todo f u ≤ todo f t := by
  unfold todo
  refine List.countP_mono_left fun b _ k => ?_
  cases e : t.bid b with
  | none => rfl
  | some j => rw [h.bid b j e] at k; cases k

theorem todo_mark {b : Nat} {t : Tags} (hb : t.bid b = none) (hm : b ∈ f.allBbs) : todo f (mark f b t) < todo f t := by
  unfold todo
  rw [mark_bid]
  have key : ∀ l : List Nat, b ∈ l → l.countP (fun c => (upd t.bid b (some t.bcnt) c).isNone) < l.countP (fun c => (t.bid c).isNone) := by
    intro l
    have le : ∀ l : List Nat, l.countP (fun c => (upd t.bid b (some t.bcnt) c).isNone) ≤ l.countP (fun c => (t.bid c).isNone) := fun l => by
      refine List.countP_mono_left fun c _ k => ?_
      unfold upd at k
      split at k
      · cases k
      · exact k
    induction l with
    | nil => intro h; cases h
    | cons c l ih =>
      intro h
      rw [List.countP_cons, List.countP_cons]
      by_cases e : c = b
      · subst e
        have := le l
        simp [upd, hb]
        exact Nat.lt_succ_of_le this
      · have := ih ((List.mem_cons.1 h).resolve_left (fun h => e h.symm))
        unfold upd at this ⊢
        rw [if_neg e]
        omega
  exact key _ hm

/-- The numbering comes to an end. -/
theorem tag_total (he : f.entry ∈ f.allBbs) (hs : ∀ b ∈ f.allBbs, ∀ c ∈ f.succs b, c ∈ f.allBbs) : ∃ t, tag f = some t := by
  have key : ∀ (n b : Nat) (t : Tags), b ∈ f.allBbs → todo f t < n → ∃ u, assign f n b t = some u := by
    intro n
    induction n with
    | zero => intro b t _ h; omega
    | succ n ih =>
      intro b t hb hn
      simp only [assign]
      split
      · exact ⟨t, rfl⟩
      · next h =>
        replace h : t.bid b = none := by cases h' : t.bid b with
          | none => rfl
          | some k => rw [h'] at h; exact absurd rfl h
        have fold : ∀ (bs : List Nat) (t : Tags), (∀ c ∈ bs, c ∈ f.allBbs) → todo f t < n → ∃ u, bs.foldlM (fun t c => assign f n c t) t = some u := by
          intro bs
          induction bs with
          | nil => intro t _ _; exact ⟨t, rfl⟩
          | cons c bs ih' =>
            intro t hc ht
            obtain ⟨u, eu⟩ := ih c t (hc c (by simp)) ht
            obtain ⟨v, ev⟩ := ih' u (fun d hd => hc d (by simp [hd])) (Nat.lt_of_le_of_lt (todo_ext (visit _ _ _ _ eu).ext) ht)
            exact ⟨v, by rw [List.foldlM_cons]; exact Option.bind_eq_some_iff.2 ⟨u, eu, ev⟩⟩
        exact fold (f.succs b) (mark f b t) (hs b hb) (by have := todo_mark h hb; omega)
  exact key _ _ _ he (Nat.lt_succ_of_le (List.countP_le_length))

end Verif.Show
