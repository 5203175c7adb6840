import Verif.Layout.Model
/-! # Helper lemmas about layout -/
set_option linter.unusedSimpArgs false
namespace Verif.Layout
open Verif

/-- Control can run from the end of `b` straight into `c`: `b` has one successor and does not end with
a `JA`, or it has two and `c` is the first (the not-taken side). -/
def Falls (g : Graph) (b c : Nat) : Prop :=
  ((g b).succs = [c] ∧ (g b).jaTo = none) ∨ ∃ d, (g b).succs = [c, d]

/-- Well-formed graph around `entry`, over blocks below `N`. -/
structure WF (g : Graph) (entry N : Nat) : Prop where
  entry_lt : entry < N
  bound : ∀ b, b < N → ∀ c ∈ (g b).succs, c < N
  bound' : ∀ b, b < N → ∀ c ∈ (g b).preds, c < N
  few : ∀ b, b < N → (g b).succs.length ≤ 2
  ja : ∀ b t, (g b).jaTo = some t → (g b).succs = [t]
  edge : ∀ b c, b < N → (c ∈ (g b).succs → b ∈ (g c).preds)
  edge' : ∀ b c, c < N → (b ∈ (g c).preds → c ∈ (g b).succs)
  preds_nodup : ∀ b, b < N → (g b).preds.Nodup
  uniq : ∀ b b' c, b < N → b' < N → Falls g b c → Falls g b' c → b = b'
  acyclic : ∃ rank : Nat → Nat, ∀ b c, b < N → Falls g b c → rank b < rank c
  entry_head : ∀ b, b < N → ¬ Falls g b entry

theorem falls_succ {g : Graph} {b c} (h : Falls g b c) : c ∈ (g b).succs := by
  rcases h with ⟨h, -⟩ | ⟨d, h⟩ <;> simp [h]

theorem falls_fun {g : Graph} {b c d} (h : Falls g b c) (h' : Falls g b d) : c = d := by
  rcases h with ⟨h, -⟩ | ⟨x, h⟩ <;> rcases h' with ⟨h', -⟩ | ⟨y, h'⟩ <;> simp [h] at h' <;> simp [h']

variable {g : Graph} {entry N : Nat}

/-- What the predecessor search finds. -/
theorem pickPred_spec (hw : WF g entry N) {bb : Nat} (hbb : bb < N) (r : List Nat) : ∀ (p : Option Nat),
    (∀ b ∈ r, b < N ∧ bb ∈ (g b).succs) → r.Nodup → (∀ q, p = some q → q < N ∧ Falls g q bb ∧ q ∉ r) →
    ∃ q, pickPred g bb r p = some q ∧ (∀ b, q = some b → b < N ∧ Falls g b bb) ∧
      (q = none → p = none ∧ ∀ b ∈ r, ¬ Falls g b bb) := by
  induction r with
  | nil =>
    intro p _ _ hp
    exact ⟨p, rfl, fun b hb => ⟨(hp b hb).1, (hp b hb).2.1⟩, fun h => ⟨h, by simp⟩⟩
  | cons b r ih =>
    intro p hr hnd hp
    have hrt : ∀ b ∈ r, b < N ∧ bb ∈ (g b).succs := fun c hc => hr c (List.mem_cons_of_mem _ hc)
    obtain ⟨hbn, hbs⟩ := hr b (List.mem_cons_self ..)
    have hlen := hw.few b hbn
    simp only [List.nodup_cons] at hnd
    have hpt : ∀ q, p = some q → q < N ∧ Falls g q bb ∧ q ∉ r := fun q hq =>
      ⟨(hp q hq).1, (hp q hq).2.1, fun h => (hp q hq).2.2 (List.mem_cons_of_mem _ h)⟩
    have skip : ¬ Falls g b bb → ∃ q, pickPred g bb r p = some q ∧ (∀ b, q = some b → b < N ∧ Falls g b bb) ∧
      (q = none → p = none ∧ ∀ c ∈ b :: r, ¬ Falls g c bb) := by
      intro hnf
      obtain ⟨q, h1, h2, h3⟩ := ih p hrt hnd.2 hpt
      refine ⟨q, h1, h2, fun h => ⟨(h3 h).1, ?_⟩⟩
      intro c hc
      rcases List.mem_cons.1 hc with rfl | hc
      · exact hnf
      · exact (h3 h).2 c hc
    have take : Falls g b bb → p.isSome = false ∧ ∃ q, pickPred g bb r (some b) = some q ∧
        (∀ b, q = some b → b < N ∧ Falls g b bb) ∧ (q = none → p = none ∧ ∀ c ∈ b :: r, ¬ Falls g c bb) := by
      intro hf
      have hpn : p = none := by
        cases hp' : p with
        | none => rfl
        | some q =>
          obtain ⟨a1, a2, a3⟩ := hp q hp'
          have := hw.uniq q b bb a1 hbn a2 hf
          subst this
          exact absurd (List.mem_cons_self ..) a3
      refine ⟨by simp [hpn], ?_⟩
      obtain ⟨q, h1, h2, h3⟩ := ih (some b) hrt hnd.2 (by
        intro q hq; injection hq with hq; subst hq; exact ⟨hbn, hf, hnd.1⟩)
      exact ⟨q, h1, h2, fun h => absurd (h3 h).1 (by simp)⟩
    match hs : (g b).succs with
    | [] => simp [hs] at hbs
    | [s] =>
      rw [hs] at hbs
      simp at hbs
      subst hbs
      simp only [pickPred, hs]
      cases hja : (g b).jaTo with
      | some t =>
        simp only [Option.isSome_some, if_true]
        exact skip (by rintro (⟨-, h⟩ | ⟨d, h⟩) <;> simp_all)
      | none =>
        obtain ⟨h1, h2⟩ := take (Or.inl ⟨hs, hja⟩)
        simp only [Option.isSome_none, Bool.false_eq_true, if_false, h1]
        exact h2
    | [s0, s1] =>
      simp only [pickPred, hs]
      by_cases e : s0 = bb
      · subst e
        obtain ⟨h1, h2⟩ := take (Or.inr ⟨s1, hs⟩)
        simp only [h1, Bool.false_eq_true, if_false, if_true]
        exact h2
      · simp only [if_neg e]
        exact skip (by rintro (⟨h, -⟩ | ⟨d, h⟩) <;> simp_all)
    | _ :: _ :: _ :: _ => simp [hs] at hlen

/-- A chain of falls. -/
inductive Chain (g : Graph) : Nat → Nat → Prop
  | refl (b) : Chain g b b
  | step {a b c} : Falls g a b → Chain g b c → Chain g a c

theorem Chain.snoc {g : Graph} {a b c} (h : Chain g a b) (h2 : Falls g b c) : Chain g a c := by
  induction h with
  | refl b => exact .step h2 (.refl _)
  | step h _ ih => exact .step h (ih h2)

/-- `find_chain_head` returns a block without fall-through predecessor from which control falls to the
given block. -/
theorem chainHead_spec (hw : WF g entry N) (n : Nat) : ∀ bb r, bb < N → chainHead g n bb = some r →
    ∃ h, r = some h ∧ h < N ∧ Chain g h bb ∧ ∀ b, b < N → ¬ Falls g b h := by
  induction n with
  | zero => intro bb r _ h; simp [chainHead] at h
  | succ n ih =>
    intro bb r hbb h
    simp only [chainHead] at h
    have hno : ∀ b, b < N → Falls g b bb → b ∈ (g bb).preds := fun b hb hf => hw.edge b bb hb (falls_succ hf)
    split at h
    · rename_i he
      injection h with h
      exact ⟨bb, h.symm, hbb, .refl _, fun b hb hf => by have := hno b hb hf; rw [he] at this; simp at this⟩
    · obtain ⟨q, h1, h2, h3⟩ := pickPred_spec hw hbb (g bb).preds none
        (fun b hb => ⟨hw.bound' bb hbb b hb, hw.edge' b bb hbb hb⟩) (hw.preds_nodup bb hbb) (by simp)
      rw [h1] at h
      cases q with
      | none =>
        simp at h
        exact ⟨bb, h.symm, hbb, .refl _, fun b hb hf => (h3 rfl).2 b (hno b hb hf) hf⟩
      | some p =>
        simp only at h
        obtain ⟨hp, hf⟩ := h2 p rfl
        obtain ⟨h', e1, e2, e3, e4⟩ := ih p r hp h
        exact ⟨h', e1, e2, e3.snoc hf, e4⟩

theorem chainHead_term (hw : WF g entry N) (rank : Nat → Nat) (hr : ∀ b c, b < N → Falls g b c → rank b < rank c)
    (n : Nat) : ∀ bb, bb < N → rank bb < n → chainHead g n bb ≠ none := by
  induction n with
  | zero => intro bb _ h; omega
  | succ n ih =>
    intro bb hbb hn
    simp only [chainHead]
    split
    · simp
    · obtain ⟨q, h1, h2, h3⟩ := pickPred_spec hw hbb (g bb).preds none
        (fun b hb => ⟨hw.bound' bb hbb b hb, hw.edge' b bb hbb hb⟩) (hw.preds_nodup bb hbb) (by simp)
      rw [h1]
      cases q with
      | none => simp
      | some p =>
        simp only
        obtain ⟨hp, hf⟩ := h2 p rfl
        exact ih p hp (by have := hr p bb hp hf; omega)

/-- `b` is directly followed by `c` in `l`. -/
def Next (l : List Nat) (b c : Nat) : Prop := ∃ A B, l = A ++ b :: c :: B

theorem Next.append {l : List Nat} {b c : Nat} (h : Next l b c) (m : List Nat) : Next (l ++ m) b c := by
  obtain ⟨A, B, rfl⟩ := h
  exact ⟨A, B ++ m, by simp⟩

/-- State of the traversal between chains. -/
structure Inv (g : Graph) (entry N : Nat) (out todo : List Nat) : Prop where
  nodup : out.Nodup
  lt : ∀ b ∈ out, b < N
  todo_lt : ∀ b ∈ todo, b < N
  adj : ∀ b ∈ out, ∀ c, Falls g b c → Next out b c
  up : ∀ c ∈ out, ∀ b, b < N → Falls g b c → b ∈ out
  closed : ∀ b ∈ out, ∀ c ∈ (g b).succs, c ∈ out ∨ c ∈ todo
  first : out.head? = some entry ∨ (out = [] ∧ todo = [entry])

/-- State inside a chain, about to visit `bb`. -/
structure Mid (g : Graph) (entry N : Nat) (out todo : List Nat) (bb : Nat) : Prop where
  nodup : out.Nodup
  fresh : bb ∉ out
  lt : ∀ b ∈ out, b < N
  bb_lt : bb < N
  todo_lt : ∀ b ∈ todo, b < N
  adj : ∀ b ∈ out, ∀ c, Falls g b c → Next out b c ∨ (c = bb ∧ ∃ A, out = A ++ [b])
  up : ∀ c ∈ out, ∀ b, b < N → Falls g b c → b ∈ out
  bb_up : ∀ b, b < N → Falls g b bb → b ∈ out
  closed : ∀ b ∈ out, ∀ c ∈ (g b).succs, c ∈ out ∨ c ∈ todo ∨ Chain g bb c
  first : out.head? = some entry ∨ (out = [] ∧ bb = entry)

theorem Mid.push (hw : WF g entry N) {out todo bb} (h : Mid g entry N out todo bb) :
    (out ++ [bb]).Nodup ∧ (∀ b ∈ out ++ [bb], b < N) ∧
    (∀ c ∈ out ++ [bb], ∀ b, b < N → Falls g b c → b ∈ out ++ [bb]) ∧
    (out ++ [bb]).head? = some entry ∧
    (∀ b ∈ out, ∀ c, Falls g b c → Next (out ++ [bb]) b c) := by
  refine ⟨?_, ?_, ?_, ?_, ?_⟩
  · rw [List.nodup_append]
    refine ⟨h.nodup, by simp, ?_⟩
    intro a ha b hb e
    simp at hb
    subst hb e
    exact h.fresh ha
  · intro b hb
    rcases List.mem_append.1 hb with hb | hb
    · exact h.lt b hb
    · simp at hb; subst hb; exact h.bb_lt
  · intro c hc b hb hf
    rcases List.mem_append.1 hc with hc | hc
    · exact List.mem_append_left _ (h.up c hc b hb hf)
    · simp at hc; subst hc; exact List.mem_append_left _ (h.bb_up b hb hf)
  · rcases h.first with h1 | ⟨h1, h2⟩
    · cases out with
      | nil => simp at h1
      | cons x xs => simpa using h1
    · simp [h1, h2]
  · intro b hb c hf
    rcases h.adj b hb c hf with h1 | ⟨rfl, A, rfl⟩
    · exact h1.append _
    · exact ⟨A, [], by simp⟩

theorem visit_spec (hw : WF g entry N) (n : Nat) : ∀ bb out todo r, Mid g entry N out todo bb →
    visit g n bb out todo = some r →
    ∃ out' todo', r = .ok (out', todo') ∧ Inv g entry N out' todo' ∧ out'.head? = some entry ∧
      out.length < out'.length ∧ todo'.length + out.length ≤ todo.length + out'.length ∧
      (∀ x ∈ out, x ∈ out') ∧ bb ∈ out' ∧ (∀ x ∈ todo, x ∈ todo') := by
  induction n with
  | zero => intro bb out todo r _ h; simp [visit] at h
  | succ n ih =>
    intro bb out todo r hm h
    obtain ⟨p1, p2, p3, p4, p5⟩ := hm.push hw
    have hlen := hw.few bb hm.bb_lt
    -- moving on to the fall-through successor
    have move : ∀ c todo2, Falls g bb c → (∀ b ∈ todo2, b < N) → (∀ x ∈ todo, x ∈ todo2) →
        (∀ d ∈ (g bb).succs, d ∈ todo2 ∨ d = c) → Mid g entry N (out ++ [bb]) todo2 c := by
      intro c todo2 hf ht hsub hsucc
      have hcn : c < N := hw.bound bb hm.bb_lt c (falls_succ hf)
      have hup : ∀ b, b < N → Falls g b c → b ∈ out ++ [bb] := by
        intro b hb hf'
        rw [hw.uniq b bb c hb hm.bb_lt hf' hf]; simp
      have hfresh : c ∉ out ++ [bb] := by
        intro hc
        rcases List.mem_append.1 hc with hc | hc
        · exact hm.fresh (hm.up c hc bb hm.bb_lt hf)
        · simp at hc; subst hc
          exact hm.fresh (hm.bb_up c hm.bb_lt hf)
      refine ⟨p1, hfresh, p2, hcn, ht, ?_, p3, hup, ?_, Or.inl p4⟩
      · intro b hb d hf'
        rcases List.mem_append.1 hb with hb | hb
        · exact Or.inl (p5 b hb d hf')
        · simp at hb; subst hb
          exact Or.inr ⟨falls_fun hf' hf, out, rfl⟩
      · intro b hb d hd
        rcases List.mem_append.1 hb with hb | hb
        · rcases hm.closed b hb d hd with h1 | h1 | h1
          · exact Or.inl (List.mem_append_left _ h1)
          · exact Or.inr (Or.inl (hsub d h1))
          · cases h1 with
            | refl => exact Or.inl (by simp)
            | step hx hy => exact Or.inr (Or.inr (falls_fun hx hf ▸ hy))
        · simp at hb; subst hb
          rcases hsucc d hd with h1 | h1
          · exact Or.inr (Or.inl h1)
          · subst h1; exact Or.inr (Or.inr (.refl _))
    -- the chain ends here
    have stop : ∀ todo2, (∀ c, ¬ Falls g bb c) → (∀ b ∈ todo2, b < N) → (∀ x ∈ todo, x ∈ todo2) →
        (∀ d ∈ (g bb).succs, d ∈ todo2) → Inv g entry N (out ++ [bb]) todo2 := by
      intro todo2 hf ht hsub hsucc
      refine ⟨p1, p2, ht, ?_, p3, ?_, Or.inl p4⟩
      · intro b hb d hf'
        rcases List.mem_append.1 hb with hb | hb
        · exact p5 b hb d hf'
        · simp at hb; subst hb; exact absurd hf' (hf d)
      · intro b hb d hd
        rcases List.mem_append.1 hb with hb | hb
        · rcases hm.closed b hb d hd with h1 | h1 | h1
          · exact Or.inl (List.mem_append_left _ h1)
          · exact Or.inr (hsub d h1)
          · cases h1 with
            | refl => exact Or.inl (by simp)
            | step hx hy => exact absurd hx (hf _)
        · simp at hb; subst hb
          exact Or.inr (hsucc d hd)
    simp only [visit] at h
    match hs : (g bb).succs with
    | [] =>
      simp only [hs] at h
      injection h with h
      refine ⟨_, _, h.symm, stop todo ?_ hm.todo_lt (fun _ h => h) (by simp [hs]), p4, by simp, by simp, ?_, by simp, fun _ h => h⟩
      · rintro c (⟨h, -⟩ | ⟨d, h⟩) <;> simp [hs] at h
      · intro x hx; simp [hx]
    | [s] =>
      simp only [hs] at h
      cases hja : (g bb).jaTo with
      | some t =>
        simp only [hja] at h
        injection h with h
        have := hw.ja bb t hja
        rw [hs] at this
        simp at this
        subst this
        have hsn : s < N := hw.bound bb hm.bb_lt s (by simp [hs])
        refine ⟨_, _, h.symm, stop (todo ++ [s]) ?_ ?_ (fun _ h => by simp [h]) (by simp [hs]), p4, by simp, by simp; omega, ?_, by simp,
          fun _ h => by simp [h]⟩
        · rintro c (⟨-, h⟩ | ⟨d, h⟩)
          · simp [hja] at h
          · simp [hs] at h
        · intro b hb
          rcases List.mem_append.1 hb with hb | hb
          · exact hm.todo_lt b hb
          · simp at hb; subst hb; exact hsn
        · intro x hx; simp [hx]
      | none =>
        simp only [hja] at h
        have := move s todo (Or.inl ⟨hs, hja⟩) hm.todo_lt (fun _ h => h) (by simp [hs])
        obtain ⟨o, t, e1, e2, e3, e4, e5, e6, e7, e8⟩ := ih _ _ _ _ this h
        simp at e4 e5
        exact ⟨o, t, e1, e2, e3, by omega, by omega, fun x hx => e6 x (by simp [hx]), e6 bb (by simp), e8⟩
    | [s0, s1] =>
      simp only [hs] at h
      have hsn : s1 < N := hw.bound bb hm.bb_lt s1 (by simp [hs])
      have := move s0 (todo ++ [s1]) (Or.inr ⟨s1, hs⟩) (by
        intro b hb
        rcases List.mem_append.1 hb with hb | hb
        · exact hm.todo_lt b hb
        · simp at hb; subst hb; exact hsn) (fun _ h => by simp [h]) (by
          intro d hd; simp [hs] at hd; rcases hd with rfl | rfl
          · exact Or.inr rfl
          · exact Or.inl (by simp))
      obtain ⟨o, t, e1, e2, e3, e4, e5, e6, e7, e8⟩ := ih _ _ _ _ this h
      simp at e4 e5
      exact ⟨o, t, e1, e2, e3, by omega, by omega, fun x hx => e6 x (by simp [hx]), e6 bb (by simp),
        fun x hx => e8 x (by simp [hx])⟩
    | _ :: _ :: _ :: _ => simp [hs] at hlen

theorem visit_term (hw : WF g entry N) (M : Nat) (rank : Nat → Nat) (hr : ∀ b c, b < N → Falls g b c → rank b < rank c)
    (hM : ∀ b, b < N → rank b < M) (n : Nat) : ∀ bb out todo, bb < N → M ≤ n + rank bb →
    visit g n bb out todo ≠ none := by
  induction n with
  | zero => intro bb out todo hb h; have := hM bb hb; omega
  | succ n ih =>
    intro bb out todo hb h
    have hlen := hw.few bb hb
    simp only [visit]
    match hs : (g bb).succs with
    | [] => simp
    | [s] =>
      cases hja : (g bb).jaTo with
      | some t => simp
      | none =>
        simp only
        have := hr bb s hb (Or.inl ⟨hs, hja⟩)
        exact ih _ _ _ (hw.bound bb hb s (by simp [hs])) (by omega)
    | [s0, s1] =>
      simp only
      have := hr bb s0 hb (Or.inr ⟨s1, hs⟩)
      exact ih _ _ _ (hw.bound bb hb s0 (by simp [hs])) (by omega)
    | _ :: _ :: _ :: _ => simp [hs] at hlen

/-- From a fresh block, its chain head can be visited. -/
theorem Inv.toMid (hw : WF g entry N) {out todo bb h} (hi : Inv g entry N out (bb :: todo)) (hf : bb ∉ out)
    (hh : h < N) (hc : Chain g h bb) (hn : ∀ b, b < N → ¬ Falls g b h) :
    h ∉ out ∧ ((out = [] → h = entry ∧ todo = []) ) := by
  have down : ∀ a b, Chain g a b → a ∈ out → b ∈ out := by
    intro a b hab
    induction hab with
    | refl => exact id
    | step hf' _ ih =>
      intro ha
      obtain ⟨A, B, e⟩ := hi.adj _ ha _ hf'
      exact ih (by rw [e]; simp)
  refine ⟨fun hm => hf (down _ _ hc hm), fun he => ?_⟩
  rcases hi.first with h1 | ⟨-, h2⟩
  · simp [he] at h1
  · simp at h2
    obtain ⟨rfl, rfl⟩ := h2
    refine ⟨?_, rfl⟩
    have : ∀ a b, Chain g a b → a < N → b = bb → a = bb := by
      intro a b hab
      induction hab with
      | refl => intro _ h; exact h
      | step hf' hch ih =>
        intro ha hb
        have hx := ih (hw.bound _ ha _ (falls_succ hf')) hb
        rw [hx] at hf'
        exact absurd hf' (hw.entry_head _ ha)
    exact this _ _ hc hh rfl

theorem length_le {l : List Nat} (hn : l.Nodup) (hl : ∀ b ∈ l, b < N) : l.length ≤ N := by
  have : l ⊆ List.range N := fun b hb => List.mem_range.2 (hl b hb)
  simpa using List.Nodup.length_le_of_subset hn this

/-- What the traversal returns. -/
structure Good (g : Graph) (entry N : Nat) (l : List Nat) : Prop where
  nodup : l.Nodup
  first : l.head? = some entry
  lt : ∀ b ∈ l, b < N
  adj : ∀ b ∈ l, ∀ c, Falls g b c → Next l b c
  closed : ∀ b ∈ l, ∀ c ∈ (g b).succs, c ∈ l

/-- Everything queued or output so far is in the result. -/
theorem reach_spec (hw : WF g entry N) (n : Nat) : ∀ todo out r, Inv g entry N out todo →
    reach g n todo out = some r → ∃ l, r = .ok l ∧ Good g entry N l := by
  induction n with
  | zero => intro todo out r _ h; simp [reach] at h
  | succ n ih =>
    intro todo out r hi h
    cases todo with
    | nil =>
      simp only [reach] at h
      injection h with h
      refine ⟨out, h.symm, hi.nodup, ?_, hi.lt, hi.adj, fun b hb c hc => ?_⟩
      · rcases hi.first with h1 | ⟨-, h2⟩
        · exact h1
        · simp at h2
      · rcases hi.closed b hb c hc with h1 | h1
        · exact h1
        · simp at h1
    | cons bb todo =>
      simp only [reach] at h
      by_cases hb : bb ∈ out
      · simp only [if_pos hb] at h
        refine ih todo out r ⟨hi.nodup, hi.lt, fun b h => hi.todo_lt b (List.mem_cons_of_mem _ h), hi.adj, hi.up, ?_, ?_⟩ h
        · intro b hb' c hc
          rcases hi.closed b hb' c hc with h1 | h1
          · exact Or.inl h1
          · rcases List.mem_cons.1 h1 with rfl | h1
            · exact Or.inl hb
            · exact Or.inr h1
        · rcases hi.first with h1 | ⟨h1, -⟩
          · exact Or.inl h1
          · simp [h1] at hb
      · simp only [if_neg hb] at h
        have hbn := hi.todo_lt bb (List.mem_cons_self ..)
        cases hch : chainHead g n bb with
        | none => simp [hch] at h
        | some hd =>
          obtain ⟨hh, rfl, h2, h3, h4⟩ := chainHead_spec hw n bb hd hbn hch
          obtain ⟨m1, m2⟩ := hi.toMid hw hb h2 h3 h4
          simp only [hch, if_neg m1] at h
          have hmid : Mid g entry N out todo hh := by
            refine ⟨hi.nodup, m1, hi.lt, h2, fun b h => hi.todo_lt b (List.mem_cons_of_mem _ h),
              fun b hb c hf => Or.inl (hi.adj b hb c hf), hi.up, fun b hb hf => absurd hf (h4 b hb), ?_, ?_⟩
            · intro b hb' c hc
              rcases hi.closed b hb' c hc with h1 | h1
              · exact Or.inl h1
              · rcases List.mem_cons.1 h1 with rfl | h1
                · exact Or.inr (Or.inr h3)
                · exact Or.inr (Or.inl h1)
            · rcases hi.first with h1 | ⟨h1, -⟩
              · exact Or.inl h1
              · exact Or.inr ⟨h1, (m2 h1).1⟩
          cases hv : visit g n hh out todo with
          | none => simp [hv] at h
          | some rv =>
            obtain ⟨o, t, rfl, e2, -⟩ := visit_spec hw n _ _ _ _ hmid hv
            simp only [hv] at h
            exact ih _ _ _ e2 h

/-- The traversal ends. -/
theorem reach_term (hw : WF g entry N) (M : Nat) (rank : Nat → Nat)
    (hr : ∀ b c, b < N → Falls g b c → rank b < rank c) (hM : ∀ b, b < N → rank b < M) (n : Nat) :
    ∀ todo out, Inv g entry N out todo → M + todo.length + N < n + out.length → reach g n todo out ≠ none := by
  induction n with
  | zero =>
    intro todo out hi h
    have := length_le hi.nodup hi.lt
    omega
  | succ n ih =>
    intro todo out hi h
    have hout := length_le hi.nodup hi.lt
    cases todo with
    | nil => simp [reach]
    | cons bb todo =>
      simp only [reach]
      simp only [List.length_cons] at h
      by_cases hb : bb ∈ out
      · simp only [if_pos hb]
        refine ih todo out ⟨hi.nodup, hi.lt, fun b h => hi.todo_lt b (List.mem_cons_of_mem _ h), hi.adj, hi.up, ?_, ?_⟩ (by omega)
        · intro b hb' c hc
          rcases hi.closed b hb' c hc with h1 | h1
          · exact Or.inl h1
          · rcases List.mem_cons.1 h1 with rfl | h1
            · exact Or.inl hb
            · exact Or.inr h1
        · rcases hi.first with h1 | ⟨h1, -⟩
          · exact Or.inl h1
          · simp [h1] at hb
      · simp only [if_neg hb]
        have hbn := hi.todo_lt bb (List.mem_cons_self ..)
        cases hch : chainHead g n bb with
        | none => exact absurd hch (chainHead_term hw rank hr n bb hbn (by have := hM bb hbn; omega))
        | some hd =>
          obtain ⟨hh, rfl, h2, h3, h4⟩ := chainHead_spec hw n bb hd hbn hch
          obtain ⟨m1, m2⟩ := hi.toMid hw hb h2 h3 h4
          simp only [if_neg m1]
          have hmid : Mid g entry N out todo hh := by
            refine ⟨hi.nodup, m1, hi.lt, h2, fun b h => hi.todo_lt b (List.mem_cons_of_mem _ h),
              fun b hb c hf => Or.inl (hi.adj b hb c hf), hi.up, fun b hb hf => absurd hf (h4 b hb), ?_, ?_⟩
            · intro b hb' c hc
              rcases hi.closed b hb' c hc with h1 | h1
              · exact Or.inl h1
              · rcases List.mem_cons.1 h1 with rfl | h1
                · exact Or.inr (Or.inr h3)
                · exact Or.inr (Or.inl h1)
            · rcases hi.first with h1 | ⟨h1, -⟩
              · exact Or.inl h1
              · exact Or.inr ⟨h1, (m2 h1).1⟩
          cases hv : visit g n hh out todo with
          | none => exact absurd hv (visit_term hw M rank hr hM n _ _ _ h2 (by omega))
          | some rv =>
            obtain ⟨o, t, rfl, e2, -, e4, e5, -⟩ := visit_spec hw n _ _ _ _ hmid hv
            simp only
            exact ih _ _ e2 (by omega)

theorem inv_start (hw : WF g entry N) : Inv g entry N [] [entry] := by
  refine ⟨by simp, by simp, ?_, by simp, by simp, by simp, Or.inr ⟨rfl, rfl⟩⟩
  intro b hb; simp at hb; subst hb; exact hw.entry_lt

theorem rank_bound (rank : Nat → Nat) : ∀ N, ∃ M, ∀ b, b < N → rank b < M := by
  intro N
  induction N with
  | zero => exact ⟨0, by omega⟩
  | succ N ih =>
    obtain ⟨M, hM⟩ := ih
    refine ⟨M + rank N + 1, fun b hb => ?_⟩
    rcases Nat.lt_succ_iff_lt_or_eq.1 hb with h | rfl
    · have := hM b h; omega
    · omega

theorem layout_total (hw : WF g entry N) : ∃ k, ∀ fuel, k ≤ fuel →
    ∃ l, layout g fuel entry = some (.ok l) ∧ Good g entry N l := by
  obtain ⟨rank, hr⟩ := hw.acyclic
  obtain ⟨M, hM⟩ := rank_bound rank N
  refine ⟨M + 1 + N + 1, fun fuel hf => ?_⟩
  have ht := reach_term hw M rank hr hM fuel [entry] [] (inv_start hw) (by simp; omega)
  cases h : reach g fuel [entry] [] with
  | none => exact absurd h ht
  | some r =>
    obtain ⟨l, rfl, hl⟩ := reach_spec hw fuel _ _ _ (inv_start hw) h
    exact ⟨l, h, hl⟩

/-! More fuel changes nothing. -/

theorem chainHead_mono {g : Graph} : ∀ (n bb : Nat) {r}, chainHead g n bb = some r → ∀ n', n ≤ n' → chainHead g n' bb = some r
  | 0, _, _, h, _, _ => by cases h
  | n + 1, bb, r, h, 0, hn => by omega
  | n + 1, bb, r, h, n' + 1, hn => by
    unfold chainHead at h ⊢
    split at h
    · next e => rw [if_pos e]; exact h
    · next e =>
      rw [if_neg e]
      cases hp : pickPred g bb (g bb).preds none with
      | none => rw [hp] at h; exact h
      | some p =>
        rw [hp] at h
        cases p with
        | none => exact h
        | some p => exact chainHead_mono n p h n' (by omega)

theorem visit_mono {g : Graph} : ∀ (n bb : Nat) (out todo : List Nat) {r}, visit g n bb out todo = some r → ∀ n', n ≤ n' → visit g n' bb out todo = some r
  | 0, _, _, _, _, h, _, _ => by cases h
  | n + 1, bb, out, todo, r, h, 0, hn => by omega
  | n + 1, bb, out, todo, r, h, n' + 1, hn => by
    unfold visit at h ⊢
    cases hs : (g bb).succs with
    | nil => rw [hs] at h; exact h
    | cons s ss =>
      rw [hs] at h
      cases ss with
      | nil =>
        dsimp only at h ⊢
        cases hj : (g bb).jaTo with
        | some t => rw [hj] at h; exact h
        | none => rw [hj] at h; exact visit_mono n s _ _ h n' (by omega)
      | cons s1 ss =>
        cases ss with
        | nil => exact visit_mono n s _ _ h n' (by omega)
        | cons _ _ => exact h

theorem reach_mono {g : Graph} : ∀ (n : Nat) (todo out : List Nat) {r}, reach g n todo out = some r → ∀ n', n ≤ n' → reach g n' todo out = some r
  | 0, _, _, _, h, _, _ => by cases h
  | n + 1, _, out, r, h, 0, hn => by omega
  | n + 1, [], out, r, h, n' + 1, hn => h
  | n + 1, bb :: todo, out, r, h, n' + 1, hn => by
    simp only [reach] at h ⊢
    split at h
    · next e => rw [if_pos e]; exact reach_mono n _ _ h n' (by omega)
    · next e =>
      rw [if_neg e]
      cases hc : chainHead g n bb with
      | none => rw [hc] at h; cases h
      | some p =>
        rw [hc] at h
        rw [chainHead_mono n bb hc n' (by omega)]
        cases p with
        | none => exact h
        | some p =>
          dsimp only at h ⊢
          split at h
          · next e2 => rw [if_pos e2]; exact h
          · next e2 =>
            rw [if_neg e2]
            cases hv : visit g n p out todo with
            | none => rw [hv] at h; cases h
            | some v =>
              rw [hv] at h
              rw [visit_mono n p out todo hv n' (by omega)]
              cases v with
              | ok v => exact reach_mono n _ _ h n' (by omega)
              | err => exact h
              | crit => exact h
              | ub => exact h

theorem layout_mono {g : Graph} {n entry : Nat} {r} (h : layout g n entry = some r) {n' : Nat} (hn : n ≤ n') : layout g n' entry = some r :=
  reach_mono n _ _ h n' hn

end Verif.Layout
