import Verif.GenBB.Model
/-! # Lemmas about the construction of basic blocks -/
set_option linter.unusedSimpArgs false
namespace Verif.GenBB
open Verif Verif.Bpf

theorem target_eq {i : Nat} (h : i < 32768) (off : BitVec 16) : target i off = i + off.toInt + 1 := by
  have : (BitVec.ofNat 16 i).toInt = i := by
    rw [BitVec.toInt_ofNat']
    simp [Int.bmod]; omega
  rw [target, this]

/-! ## The scan -/

/-- Control can jump from `p` to `q` (in the rewritten program). -/
def JumpTo (P : List Slot) (p q : Nat) : Prop :=
  ∃ s, P[p]? = some s ∧ ((isJa s.code = true ∧ target p s.off = q) ∨
    (isCond s.code = true ∧ (target p s.off = q ∨ p + 1 = q)))

/-- `q` becomes an entrance because of the instruction at `p`. -/
def Lead (P : List Slot) (p q : Nat) : Prop :=
  JumpTo P p q ∨ ∃ s, P[p]? = some s ∧ isExit s.code = true ∧ q = p + 1 ∧ q < P.length

/-- The instruction before `q` runs into `q`. -/
def FallTo (P : List Slot) (p q : Nat) : Prop := p + 1 = q ∧ ∃ s, P[p]? = some s ∧ isBreak s.code = false

structure Ok (P : List Slot) : Prop where
  tgt : ∀ (p : Nat) (s : Slot), P[p]? = some s → isJa s.code = true ∨ isCond s.code = true →
    1 ≤ target p s.off ∧ target p s.off ≤ P.length
  ja : ∀ (p : Nat) (s : Slot), P[p]? = some s → isJa s.code = true → cls s.code = 5
  off : ∀ (p : Nat) (s : Slot), P[p]? = some s → isCond s.code = true → target p s.off ≠ p + 1

structure Inv (P : List Slot) (i : Nat) (R : Nat → Nat → Prop) (es : List Ent) : Prop where
  nodup : (es.map (·.pos)).Nodup
  pos : ∀ q, q ∈ es.map (·.pos) ↔ ∃ p, R p q ∨ (p < i ∧ Lead P p q)
  preds : ∀ e ∈ es, ∀ p, p ∈ e.preds ↔ R p e.pos ∨ (p < i ∧ JumpTo P p e.pos) ∨ FallTo P p e.pos
  pnodup : ∀ e ∈ es, e.preds.Nodup
  le : ∀ e ∈ es, 1 ≤ e.pos ∧ e.pos ≤ P.length

theorem addTo_none {pos cur : Nat} {es : List Ent} : addTo pos cur es = none ↔ pos ∉ es.map (·.pos) := by
  induction es with
  | nil => simp [addTo]
  | cons e es ih =>
    simp only [addTo]
    by_cases h : e.pos = pos
    · simp [h]
    · simp only [if_neg h, Option.map_eq_none_iff, ih, List.map_cons, List.mem_cons, not_or]
      simp [Ne.symm h]

theorem addTo_some {pos cur : Nat} {es es' : List Ent} (h : addTo pos cur es = some es') :
    ∃ A e B, es = A ++ e :: B ∧ e.pos = pos ∧ es' = A ++ { e with preds := e.preds ++ [cur] } :: B := by
  induction es generalizing es' with
  | nil => simp [addTo] at h
  | cons e es ih =>
    simp only [addTo] at h
    by_cases hp : e.pos = pos
    · simp [hp] at h
      exact ⟨[], e, es, rfl, hp, by simp [← h]; exact hp.symm⟩
    · simp only [if_neg hp, Option.map_eq_some_iff] at h
      obtain ⟨es2, h1, rfl⟩ := h
      obtain ⟨A, f, B, rfl, h2, rfl⟩ := ih h1
      exact ⟨e :: A, f, B, rfl, h2, rfl⟩

theorem addEnt_inv {P : List Slot} {i : Nat} {R : Nat → Nat → Prop} {es : List Ent} (hi : Inv P i R es)
    {q c : Nat} (hq : 1 ≤ q) (hq' : q ≤ P.length) (hR : ¬ R c q) (hJ : ¬ (c < i ∧ JumpTo P c q))
    (hF : ¬ FallTo P c q) (hRpos : ∀ p q, R p q → ∃ e ∈ es, e.pos = q) :
    ∃ es', addEnt P es (q : Nat) c = .ok es' ∧ Inv P i (fun p r => R p r ∨ (p = c ∧ r = q)) es' ∧
      (∀ p r, (R p r ∨ (p = c ∧ r = q)) → ∃ e ∈ es', e.pos = r) := by
  have hlt : q - 1 < P.length := by omega
  rw [show ((q : Nat) : Int) = Int.ofNat q from rfl]
  simp only [addEnt]
  cases ha : addTo q c es with
  | some es' =>
    refine ⟨es', rfl, ?_, ?_⟩
    · obtain ⟨A, e, B, rfl, he, rfl⟩ := addTo_some ha
      have hmem : e ∈ A ++ e :: B := by simp
      refine ⟨by simpa using hi.nodup, ?_, ?_, ?_, ?_⟩
      · intro r
        have := hi.pos r
        simp only [List.map_append, List.map_cons] at this ⊢
        rw [this]
        constructor
        · rintro ⟨p, h | h⟩
          · exact ⟨p, Or.inl (Or.inl h)⟩
          · exact ⟨p, Or.inr h⟩
        · rintro ⟨p, (h | ⟨rfl, rfl⟩) | h⟩
          · exact ⟨p, Or.inl h⟩
          · have h2 := (hi.pos e.pos).1 (List.mem_map.2 ⟨e, hmem, rfl⟩)
            rw [he] at h2; exact h2
          · exact ⟨p, Or.inr h⟩
      · intro f hf p
        have hne : ∀ f, f ∈ A ∨ f ∈ B → f.pos ≠ q := by
          intro f hf h
          have hn := hi.nodup
          rw [List.map_append, List.map_cons, List.nodup_append] at hn
          obtain ⟨_, h2, h3⟩ := hn
          rw [List.nodup_cons] at h2
          rcases hf with hf | hf
          · exact h3 f.pos (List.mem_map.2 ⟨f, hf, rfl⟩) e.pos (by simp) (by rw [h, he])
          · exact h2.1 (List.mem_map.2 ⟨f, hf, by rw [h, he]⟩)
        simp only [List.mem_append, List.mem_cons] at hf
        rcases hf with hf | rfl | hf
        · rw [hi.preds f (by simp [hf]) p]
          have := hne f (Or.inl hf)
          simp [this]
        · simp only [List.mem_append, List.mem_singleton]
          rw [hi.preds e hmem p, he]
          constructor
          · rintro ((h | h | h) | h)
            · exact Or.inl (Or.inl h)
            · exact Or.inr (Or.inl h)
            · exact Or.inr (Or.inr h)
            · exact Or.inl (Or.inr ⟨h, rfl⟩)
          · rintro ((h | h) | h | h)
            · exact Or.inl (Or.inl h)
            · exact Or.inr h.1
            · exact Or.inl (Or.inr (Or.inl h))
            · exact Or.inl (Or.inr (Or.inr h))
        · rw [hi.preds f (by simp [hf]) p]
          have := hne f (Or.inr hf)
          simp [this]
      · intro f hf
        simp only [List.mem_append, List.mem_cons] at hf
        rcases hf with hf | rfl | hf
        · exact hi.pnodup f (by simp [hf])
        · simp only
          rw [List.nodup_append]
          refine ⟨hi.pnodup e hmem, by simp, ?_⟩
          intro a ha2 b hb
          simp at hb; subst hb
          rintro rfl
          rw [hi.preds e hmem, he] at ha2
          rcases ha2 with h | h | h
          · exact hR h
          · exact hJ h
          · exact hF h
        · exact hi.pnodup f (by simp [hf])
      · intro f hf
        simp only [List.mem_append, List.mem_cons] at hf
        rcases hf with hf | rfl | hf
        · exact hi.le f (by simp [hf])
        · exact hi.le e hmem
        · exact hi.le f (by simp [hf])
    · obtain ⟨A, e, B, rfl, he, rfl⟩ := addTo_some ha
      rintro p r (h | ⟨rfl, rfl⟩)
      · obtain ⟨f, hf, hf2⟩ := hRpos p r h
        simp only [List.mem_append, List.mem_cons] at hf
        rcases hf with hf | rfl | hf
        · exact ⟨f, by simp [hf], hf2⟩
        · exact ⟨{ f with preds := f.preds ++ [c] }, by simp, hf2⟩
        · exact ⟨f, by simp [hf], hf2⟩
      · exact ⟨{ e with preds := e.preds ++ [p] }, by simp, he⟩
  | none =>
    rw [addTo_none] at ha
    simp only [ge_iff_le, hq, if_true, List.getElem?_eq_getElem hlt]
    have hnone : ∀ p, ¬ (R p q ∨ (p < i ∧ Lead P p q)) := by
      intro p h
      exact ha ((hi.pos q).2 ⟨p, h⟩)
    refine ⟨_, rfl, ?_, ?_⟩
    · refine ⟨?_, ?_, ?_, ?_, ?_⟩
      · rw [List.map_append, List.nodup_append]
        refine ⟨hi.nodup, by simp, ?_⟩
        intro a ha' b hb
        simp at hb; subst hb
        rintro rfl
        exact ha ha'
      · intro r
        simp only [List.map_append, List.mem_append, hi.pos r, List.map_cons, List.map_nil, List.mem_singleton]
        constructor
        · rintro (⟨p, h | h⟩ | rfl)
          · exact ⟨p, Or.inl (Or.inl h)⟩
          · exact ⟨p, Or.inr h⟩
          · exact ⟨c, Or.inl (Or.inr ⟨rfl, rfl⟩)⟩
        · rintro ⟨p, (h | ⟨rfl, rfl⟩) | h⟩
          · exact Or.inl ⟨p, Or.inl h⟩
          · exact Or.inr rfl
          · exact Or.inl ⟨p, Or.inr h⟩
      · intro e he p
        simp only [List.mem_append, List.mem_singleton] at he
        rcases he with he | rfl
        · have : e.pos ≠ q := fun h => ha (List.mem_map.2 ⟨e, he, h⟩)
          rw [hi.preds e he p]
          simp [this]
        · simp only
          have hFall : FallTo P p q ↔ (p = q - 1 ∧ isBreak P[q-1].code = false) := by
            constructor
            · rintro ⟨h1, s, h2, h3⟩
              have : p = q - 1 := by omega
              subst this
              rw [List.getElem?_eq_getElem hlt] at h2
              injection h2 with h2
              exact ⟨rfl, h2 ▸ h3⟩
            · rintro ⟨rfl, h⟩
              exact ⟨by omega, _, List.getElem?_eq_getElem hlt, h⟩
          have h1 : ¬ R p q := fun h => hnone p (Or.inl h)
          have h2 : ¬ (p < i ∧ JumpTo P p q) := fun h => hnone p (Or.inr ⟨h.1, Or.inl h.2⟩)
          have hc : ¬ (c = q - 1 ∧ isBreak P[q-1].code = false) := by
            intro h
            apply hF
            exact ⟨by omega, _, h.1 ▸ List.getElem?_eq_getElem hlt, h.2⟩
          simp only [h1, h2, false_or, hFall, and_true]
          by_cases hb : isBreak P[q-1].code = true
          · simp [hb, pushU]
          · simp only [Bool.not_eq_true] at hb
            have hc' : c ≠ q - 1 := fun h => hc ⟨h, hb⟩
            simp [hb, pushU, hc']
            exact or_comm
      · intro e he
        simp only [List.mem_append, List.mem_singleton] at he
        rcases he with he | rfl
        · exact hi.pnodup e he
        · have pu : ∀ l x, l.Nodup → (pushU l x).Nodup := by
            intro l x hl
            simp only [pushU]
            split
            · exact hl
            · rename_i h
              rw [List.nodup_append]
              refine ⟨hl, by simp, ?_⟩
              intro a ha b hb
              simp at hb; subst hb
              rintro rfl; exact h ha
          apply pu
          split
          · simp
          · exact pu _ _ (by simp)
      · intro e he
        simp only [List.mem_append, List.mem_singleton] at he
        rcases he with he | rfl
        · exact hi.le e he
        · exact ⟨hq, hq'⟩
    · rintro p r (h | ⟨rfl, rfl⟩)
      · obtain ⟨f, hf, hf2⟩ := hRpos p r h
        exact ⟨f, by simp [hf], hf2⟩
      · exact ⟨_, by simp; right; rfl, rfl⟩

theorem isJa_not {c : BitVec 8} (h : isJa c = true) : isCond c = false ∧ isExit c = false ∧ isBreak c = true := by
  simp [isJa] at h
  simp [isCond, isExit, isBreak, h]

theorem isCond_not {c : BitVec 8} (h : isCond c = true) : isJa c = false ∧ isExit c = false ∧ isBreak c = true := by
  simp [isCond] at h
  simp [isJa, isExit, isBreak, h]
  omega

theorem isExit_not {c : BitVec 8} (h : isExit c = true) : isJa c = false ∧ isCond c = false ∧ isBreak c = true := by
  simp [isExit] at h
  simp [isJa, isCond, isBreak, h]

theorem Inv.widen {P i R R' es} (h : Inv P i R es) (hR : ∀ p q, R p q ↔ R' p q) : Inv P i R' es := by
  have : R = R' := by funext p q; exact propext (hR p q)
  subst this; exact h

theorem scanInsn_inv {P : List Slot} (hok : Ok P) {i : Nat} {es : List Ent} {s : Slot} (hs : P[i]? = some s)
    (hi : Inv P i (fun _ _ => False) es) :
    ∃ es', scanInsn P es i s = .ok es' ∧ Inv P (i + 1) (fun _ _ => False) es' := by
  have hlen : i < P.length := by
    rcases Nat.lt_or_ge i P.length with h | h
    · exact h
    · simp [List.getElem?_eq_none h] at hs
  have hbreak : ∀ q, isBreak s.code = true → ¬ FallTo P i q := by
    rintro q hb ⟨_, t, h1, h2⟩
    rw [hs] at h1; injection h1 with h1; subst h1; rw [hb] at h2; simp at h2
  -- how the invariant moves from `i` to `i + 1`
  have fin : ∀ (R : Nat → Nat → Prop) es', Inv P i R es' →
      (∀ p q, R p q ↔ p = i ∧ JumpTo P i q) →
      (isExit s.code = true → i + 1 < P.length → (i + 1) ∈ es'.map (·.pos)) →
      Inv P (i + 1) (fun _ _ => False) es' := by
    intro R es' h hR hE
    refine ⟨h.nodup, ?_, ?_, h.pnodup, h.le⟩
    · intro q
      constructor
      · intro hq
        obtain ⟨p, hp | hp⟩ := (h.pos q).1 hq
        · obtain ⟨rfl, hp⟩ := (hR p q).1 hp
          exact ⟨p, Or.inr ⟨by omega, Or.inl hp⟩⟩
        · exact ⟨p, Or.inr ⟨by omega, hp.2⟩⟩
      · rintro ⟨p, hp | ⟨hp, hl⟩⟩
        · exact hp.elim
        · by_cases hpi : p = i
          · subst hpi
            rcases hl with hl | ⟨t, h1, h2, h3, h4⟩
            · exact (h.pos q).2 ⟨p, Or.inl ((hR p q).2 ⟨rfl, hl⟩)⟩
            · rw [hs] at h1; injection h1 with h1; subst h1
              subst h3
              exact hE h2 h4
          · exact (h.pos q).2 ⟨p, Or.inr ⟨by omega, hl⟩⟩
    · intro e he p
      rw [h.preds e he p, hR]
      constructor
      · rintro (⟨rfl, h⟩ | h | h)
        · exact Or.inr (Or.inl ⟨by omega, h⟩)
        · exact Or.inr (Or.inl ⟨by omega, h.2⟩)
        · exact Or.inr (Or.inr h)
      · rintro (h | ⟨h1, h2⟩ | h)
        · exact h.elim
        · by_cases hpi : p = i
          · subst hpi; exact Or.inl ⟨rfl, h2⟩
          · exact Or.inr (Or.inl ⟨by omega, h2⟩)
        · exact Or.inr (Or.inr h)
  simp only [scanInsn]
  by_cases hja : isJa s.code = true
  · have hn := isJa_not hja
    simp only [hja, if_true, hok.ja i s hs hja]
    obtain ⟨t1, t2⟩ := hok.tgt i s hs (Or.inl hja)
    obtain ⟨q, hq⟩ := Int.eq_ofNat_of_zero_le (a := target i s.off) (by omega)
    rw [hq]
    obtain ⟨es', h1, h2, h3⟩ := addEnt_inv hi (q := q) (c := i) (by omega) (by omega) (by simp) (by simp) (hbreak q hn.2.2)
      (by simp)
    refine ⟨es', h1, fin _ es' h2 ?_ (by simp [hn.2.1])⟩
    intro p r
    simp only [false_or]
    constructor
    · rintro ⟨rfl, rfl⟩
      exact ⟨rfl, s, hs, Or.inl ⟨hja, hq⟩⟩
    · rintro ⟨rfl, t, h4, h5⟩
      rw [hs] at h4; injection h4 with h4; subst h4
      rcases h5 with ⟨_, h5⟩ | ⟨h5, _⟩
      · exact ⟨rfl, by rw [hq] at h5; omega⟩
      · rw [hn.1] at h5; simp at h5
  · by_cases hc : isCond s.code = true
    · have hn := isCond_not hc
      simp only [hn.1, hc, if_true, Bool.false_eq_true, if_false]
      obtain ⟨t1, t2⟩ := hok.tgt i s hs (Or.inr hc)
      have t3 := hok.off i s hs hc
      obtain ⟨q, hq⟩ := Int.eq_ofNat_of_zero_le (a := target i s.off) (by omega)
      rw [hq]
      obtain ⟨es', h1, h2, h3⟩ := addEnt_inv hi (q := q) (c := i) (by omega) (by omega) (by simp) (by simp) (hbreak q hn.2.2)
        (by simp)
      obtain ⟨es2, h4, h5, h6⟩ := addEnt_inv h2 (q := i + 1) (c := i) (by omega) (by omega)
        (by simp; rw [hq] at t3; omega) (by simp) (hbreak _ hn.2.2) h3
      rw [h1]
      refine ⟨es2, h4, fin _ es2 h5 ?_ (by simp [hn.2.1])⟩
      intro p r
      simp only [false_or]
      constructor
      · rintro (⟨rfl, rfl⟩ | ⟨rfl, rfl⟩)
        · exact ⟨rfl, s, hs, Or.inr ⟨hc, Or.inl hq⟩⟩
        · exact ⟨rfl, s, hs, Or.inr ⟨hc, Or.inr rfl⟩⟩
      · rintro ⟨rfl, t, h7, h8⟩
        rw [hs] at h7; injection h7 with h7; subst h7
        rcases h8 with ⟨h8, _⟩ | ⟨_, h8 | h8⟩
        · rw [hn.1] at h8; simp at h8
        · exact Or.inl ⟨rfl, by rw [hq] at h8; omega⟩
        · exact Or.inr ⟨rfl, h8.symm⟩
    · by_cases hx : isExit s.code = true
      · have hn := isExit_not hx
        have hnoJ : ∀ q, ¬ JumpTo P i q := by
          rintro q ⟨t, h1, h2⟩
          rw [hs] at h1; injection h1 with h1; subst h1
          rcases h2 with ⟨h2, _⟩ | ⟨h2, _⟩
          · exact hja h2
          · exact hc h2
        simp only [hn.1, hn.2.1, hx, if_true, Bool.false_eq_true, if_false]
        by_cases hl : i + 1 < P.length
        · simp only [hl, if_true]
          refine ⟨_, rfl, ?_⟩
          simp only [initEnt]
          by_cases ha : (es.any (fun e => e.pos == i + 1)) = true
          · simp only [ha, if_true]
            refine fin _ es hi (by simp [hnoJ]) (fun _ _ => ?_)
            simp at ha
            obtain ⟨e, h1, h2⟩ := ha
            exact List.mem_map.2 ⟨e, h1, h2⟩
          · simp only [ha]
            have ha' : i + 1 ∉ es.map (·.pos) := by
              intro h
              obtain ⟨e, h1, h2⟩ := List.mem_map.1 h
              apply ha; simp; exact ⟨e, h1, h2⟩
            refine ⟨?_, ?_, ?_, ?_, ?_⟩
            · simp only [Bool.false_eq_true, if_false, List.map_append, List.map_cons, List.map_nil]
              rw [List.nodup_append]
              refine ⟨hi.nodup, by simp, ?_⟩
              intro a h1 b h2
              simp at h2; subst h2
              rintro rfl; exact ha' h1
            · intro q
              simp only [Bool.false_eq_true, if_false, List.map_append, List.map_cons, List.map_nil, List.mem_append,
                List.mem_singleton, hi.pos q, false_or]
              constructor
              · rintro (⟨p, h1, h2⟩ | rfl)
                · exact ⟨p, by omega, h2⟩
                · exact ⟨i, by omega, Or.inr ⟨s, hs, hx, rfl, hl⟩⟩
              · rintro ⟨p, h1, h2⟩
                by_cases hp : p = i
                · subst hp
                  rcases h2 with h2 | ⟨_, _, _, h2, _⟩
                  · exact absurd h2 (hnoJ q)
                  · exact Or.inr h2
                · exact Or.inl ⟨p, by omega, h2⟩
            · intro e he p
              simp only [Bool.false_eq_true, if_false, List.mem_append, List.mem_singleton] at he
              rcases he with he | rfl
              · rw [hi.preds e he p]
                simp only [false_or]
                constructor
                · rintro (h | h)
                  · exact Or.inl ⟨by omega, h.2⟩
                  · exact Or.inr h
                · rintro (⟨h1, h2⟩ | h)
                  · by_cases hp : p = i
                    · subst hp; exact absurd h2 (hnoJ _)
                    · exact Or.inl ⟨by omega, h2⟩
                  · exact Or.inr h
              · simp only [List.not_mem_nil, false_or, false_iff, not_or]
                constructor
                · rintro ⟨h1, h2⟩
                  by_cases hp : p = i
                  · subst hp; exact hnoJ _ h2
                  · exact ha' ((hi.pos _).2 ⟨p, Or.inr ⟨by omega, Or.inl h2⟩⟩)
                · rintro h
                  have : p = i := by have := h.1; omega
                  subst this
                  exact hbreak _ hn.2.2 h
            · intro e he
              simp only [Bool.false_eq_true, if_false, List.mem_append, List.mem_singleton] at he
              rcases he with he | rfl
              · exact hi.pnodup e he
              · simp
            · intro e he
              simp only [Bool.false_eq_true, if_false, List.mem_append, List.mem_singleton] at he
              rcases he with he | rfl
              · exact hi.le e he
              · exact ⟨by simp, by simp; omega⟩
        · simp only [hl, if_false]
          exact ⟨_, rfl, fin _ es hi (by simp [hnoJ]) (fun _ h => absurd h hl)⟩
      · simp only [hja, hc, hx, Bool.false_eq_true, if_false]
        refine ⟨_, rfl, fin _ es hi ?_ (fun h => absurd h hx)⟩
        intro p q
        simp only [false_iff]
        rintro ⟨rfl, t, h1, h2⟩
        rw [hs] at h1; injection h1 with h1; subst h1
        rcases h2 with ⟨h2, _⟩ | ⟨h2, _⟩
        · exact hja h2
        · exact hc h2

theorem scan_inv {P : List Slot} (hok : Ok P) (rest : List Slot) : ∀ (pre : List Slot) (es : List Ent),
    P = pre ++ rest → Inv P pre.length (fun _ _ => False) es →
    ∃ es', scan P es pre.length rest = .ok es' ∧ Inv P P.length (fun _ _ => False) es' := by
  induction rest with
  | nil => intro pre es h hi; simp at h; subst h; exact ⟨es, rfl, hi⟩
  | cons s rest ih =>
    intro pre es h hi
    have hs : P[pre.length]? = some s := by rw [h]; simp
    obtain ⟨es', h1, h2⟩ := scanInsn_inv hok hs hi
    obtain ⟨es2, h3, h4⟩ := ih (pre ++ [s]) es' (by simp [h]) (by simpa using h2)
    refine ⟨es2, ?_, h4⟩
    simp only [scan, h1, Out.ok_bind]
    simpa using h3

/-! ## Sorting -/

theorem insertEnt_mem {e f : Ent} {es : List Ent} : f ∈ insertEnt e es ↔ f = e ∨ f ∈ es := by
  induction es with
  | nil => simp [insertEnt]
  | cons g es ih =>
    simp only [insertEnt]
    split
    · simp
    · simp only [List.mem_cons, ih]
      constructor
      · rintro (h | h | h) <;> simp [h]
      · rintro (h | h | h) <;> simp [h]

theorem sortEnts_mem {f : Ent} {es : List Ent} : f ∈ sortEnts es ↔ f ∈ es := by
  induction es with
  | nil => simp [sortEnts]
  | cons e es ih => simp [sortEnts, insertEnt_mem, ih]

/-- Strictly increasing positions. -/
def Sorted (es : List Ent) : Prop := es.Pairwise (fun a b => a.pos < b.pos)

theorem insertEnt_sorted {e : Ent} {es : List Ent} (hs : Sorted es) (hn : ∀ f ∈ es, f.pos ≠ e.pos) :
    Sorted (insertEnt e es) := by
  induction es with
  | nil => simp [insertEnt, Sorted]
  | cons g es ih =>
    simp only [insertEnt]
    have h1 := List.pairwise_cons.1 hs
    split
    · rename_i h
      refine List.pairwise_cons.2 ⟨?_, hs⟩
      intro a ha
      have hg : e.pos < g.pos := by have := hn g (by simp); omega
      rcases List.mem_cons.1 ha with rfl | ha
      · exact hg
      · have := h1.1 a ha; omega
    · rename_i h
      refine List.pairwise_cons.2 ⟨?_, ih h1.2 (fun f hf => hn f (by simp [hf]))⟩
      intro a ha
      rcases insertEnt_mem.1 ha with rfl | ha
      · omega
      · exact h1.1 a ha

theorem sortEnts_sorted {es : List Ent} (hn : (es.map (·.pos)).Nodup) : Sorted (sortEnts es) := by
  induction es with
  | nil => simp [sortEnts, Sorted]
  | cons e es ih =>
    simp only [List.map_cons, List.nodup_cons] at hn
    refine insertEnt_sorted (ih hn.2) ?_
    intro f hf h
    exact hn.1 (List.mem_map.2 ⟨f, sortEnts_mem.1 hf, h⟩)

/-! ## Ranges -/

theorem endPos_spec (P : List Slot) (k : Nat) : ∀ j, j + k ≤ P.length →
    j ≤ endPos P k j ∧ endPos P k j ≤ j + k ∧ (0 < k → j < endPos P k j) ∧
    (∀ p s, j ≤ p → p + 1 < endPos P k j → P[p]? = some s → isEnd s.code = false) ∧
    (endPos P k j < j + k → ∃ s, P[endPos P k j - 1]? = some s ∧ isEnd s.code = true) := by
  induction k with
  | zero => intro j _; simp [endPos]; intro p s h1 h2; omega
  | succ k ih =>
    intro j hj
    have hlt : j < P.length := by omega
    simp only [endPos, List.getElem?_eq_getElem hlt]
    by_cases h : isEnd P[j].code = true
    · simp only [h, if_true]
      refine ⟨by omega, by omega, by omega, ?_, ?_⟩
      · intro p s h1 h2; omega
      · intro _; exact ⟨_, by simpa using List.getElem?_eq_getElem hlt, h⟩
    · simp only [h]
      obtain ⟨h1, h2, h3, h4, h5⟩ := ih (j + 1) (by omega)
      refine ⟨by simp; omega, by simp; omega, by simp; omega, ?_, ?_⟩
      · intro p s h6 h7 h8
        simp only [Bool.false_eq_true, if_false] at h7
        by_cases hp : p = j
        · subst hp
          rw [List.getElem?_eq_getElem hlt] at h8
          injection h8 with h8
          subst h8; simpa using h
        · exact h4 p s (by omega) h7 h8
      · intro h6
        simp only [Bool.false_eq_true, if_false] at h6 ⊢
        exact h5 (by omega)

/-- Properties of the ranges of blocks. -/
structure Ranges (P : List Slot) (es : List Ent) (rs : List (Nat × Nat × List Nat)) : Prop where
  ents : rs.map (fun r => (r.1, r.2.2)) = es.map (fun e => (e.pos, e.preds))
  pw : rs.Pairwise (fun a b => a.1 < b.1 ∧ a.2.1 ≤ b.1)
  each : ∀ r ∈ rs, r.1 ≤ r.2.1 ∧ r.2.1 ≤ P.length ∧ (r.1 < P.length → r.1 < r.2.1) ∧
    (∀ p s, r.1 ≤ p → p + 1 < r.2.1 → P[p]? = some s → isEnd s.code = false) ∧
    (r.2.1 < P.length → (∃ s, P[r.2.1 - 1]? = some s ∧ isEnd s.code = true ∧ r.1 < r.2.1) ∨ ∃ r' ∈ rs, r'.1 = r.2.1)

theorem cut_ranges (P : List Slot) (es : List Ent) (hs : Sorted es) (hl : ∀ e ∈ es, e.pos ≤ P.length) :
    Ranges P es (cut P es) := by
  induction es with
  | nil => exact ⟨rfl, .nil, by simp [cut]⟩
  | cons e es ih =>
    cases es with
    | nil =>
      have he := hl e (by simp)
      obtain ⟨h1, h2, h3, h4, h5⟩ := endPos_spec P (P.length - e.pos) e.pos (by omega)
      refine ⟨rfl, by simp [cut], ?_⟩
      intro r hr
      simp [cut] at hr; subst hr
      refine ⟨h1, by simp; omega, by simp; omega, h4, ?_⟩
      intro h
      simp only at h
      obtain ⟨s, h6, h7⟩ := h5 (by omega)
      exact Or.inl ⟨s, h6, h7, h3 (by omega)⟩
    | cons f es =>
      obtain ⟨i1, i2, i3⟩ := ih (List.pairwise_cons.1 hs).2 (fun g hg => hl g (by simp [hg]))
      have hef : e.pos < f.pos := (List.pairwise_cons.1 hs).1 f (by simp)
      have hf := hl f (by simp)
      obtain ⟨h1, h2, h3, h4, h5⟩ := endPos_spec P (f.pos - e.pos) e.pos (by omega)
      have hfirst : ∃ r ∈ cut P (f :: es), r.1 = f.pos := by
        have : (f.pos, f.preds) ∈ (cut P (f :: es)).map (fun r => (r.1, r.2.2)) := by rw [i1]; simp
        obtain ⟨r, hr, h⟩ := List.mem_map.1 this
        exact ⟨r, hr, by simp at h; exact h.1⟩
      refine ⟨by simp only [cut, List.map_cons, i1], ?_, ?_⟩
      · simp only [cut]
        refine List.pairwise_cons.2 ⟨?_, i2⟩
        intro r hr
        have : (r.1, r.2.2) ∈ (cut P (f :: es)).map (fun r => (r.1, r.2.2)) := List.mem_map.2 ⟨r, hr, rfl⟩
        rw [i1] at this
        obtain ⟨g, hg, h⟩ := List.mem_map.1 this
        simp at h
        have hfg : f.pos ≤ g.pos := by
          rcases List.mem_cons.1 hg with rfl | hg
          · exact Nat.le_refl _
          · have := (List.pairwise_cons.1 (List.pairwise_cons.1 hs).2).1 g hg; omega
        simp only
        omega
      · intro r hr
        simp only [cut, List.mem_cons] at hr
        rcases hr with rfl | hr
        · refine ⟨h1, by simp; omega, fun _ => h3 (by omega), h4, ?_⟩
          intro h
          simp only at h ⊢
          by_cases hlt : endPos P (f.pos - e.pos) e.pos < e.pos + (f.pos - e.pos)
          · obtain ⟨s, h6, h7⟩ := h5 hlt
            exact Or.inl ⟨s, h6, h7, h3 (by omega)⟩
          · obtain ⟨r, hr, h⟩ := hfirst
            exact Or.inr ⟨r, by simp [cut, hr], by omega⟩
        · obtain ⟨j1, j2, j3, j4, j5⟩ := i3 r hr
          refine ⟨j1, j2, j3, j4, ?_⟩
          intro h
          rcases j5 h with h | ⟨r', h1, h2⟩
          · exact Or.inl h
          · exact Or.inr ⟨r', by simp [cut, h1], h2⟩

/-! ## Finding the block of a position -/

theorem parent_spec {rs : List (Nat × Nat × List Nat)} (hpw : rs.Pairwise (fun a b => a.1 < b.1 ∧ a.2.1 ≤ b.1))
    (h0 : ∀ r, rs.head? = some r → r.1 = 0) (pos k : Nat) :
    parent rs pos = some k ↔ ∃ r, rs[k]? = some r ∧ r.1 ≤ pos ∧ pos < r.2.1 := by
  -- `takeWhile` finds the last block starting at or before `pos`
  have gen : ∀ (rs : List (Nat × Nat × List Nat)), rs.Pairwise (fun a b => a.1 < b.1 ∧ a.2.1 ≤ b.1) →
      ∀ k r, rs[k]? = some r → ((rs.takeWhile (fun r => r.1 ≤ pos)).length = k + 1 ↔
        r.1 ≤ pos ∧ ∀ r', rs[k + 1]? = some r' → pos < r'.1) := by
    intro rs
    induction rs with
    | nil => simp
    | cons a rs ih =>
      intro hpw k r hk
      have hp := List.pairwise_cons.1 hpw
      cases k with
      | zero =>
        simp at hk; subst hk
        by_cases ha : a.1 ≤ pos
        · simp only [List.takeWhile_cons, ha, decide_true, if_true, List.length_cons]
          cases rs with
          | nil => simp
          | cons b rs =>
            simp only [List.takeWhile_cons]
            by_cases hb : b.1 ≤ pos
            · simp [hb]
            · simp [hb]; omega
        · simp [List.takeWhile_cons, ha]
      | succ k =>
        simp at hk
        have hmem : r ∈ rs := List.mem_of_getElem? hk
        by_cases ha : a.1 ≤ pos
        · simp only [List.takeWhile_cons, ha, decide_true, if_true, List.length_cons]
          have := ih hp.2 k r hk
          simp only [Nat.add_right_cancel_iff, List.getElem?_cons_succ]
          exact this
        · have := (hp.1 r hmem).1
          simp [List.takeWhile_cons, ha]
          intro; omega
  cases rs with
  | nil => simp [parent]
  | cons a rs =>
    have ha : a.1 = 0 := h0 a rfl
    have hp := List.pairwise_cons.1 hpw
    have htw : ((a :: rs).takeWhile (fun r => r.1 ≤ pos)).length = (rs.takeWhile (fun r => r.1 ≤ pos)).length + 1 := by
      simp [List.takeWhile_cons, ha]
    have hle : (rs.takeWhile (fun r => r.1 ≤ pos)).length ≤ rs.length := by
      have : ∀ (l : List (Nat × Nat × List Nat)), (l.takeWhile (fun r => r.1 ≤ pos)).length ≤ l.length := by
        intro l
        induction l with
        | nil => simp
        | cons a l ih => simp only [List.takeWhile_cons]; split <;> simp <;> omega
      exact this rs
    simp only [parent, List.tail_cons]
    generalize hid : (rs.takeWhile (fun r => r.1 ≤ pos)).length = id at htw hle
    have hsome : ∃ r, (a :: rs)[id]? = some r := ⟨_, List.getElem?_eq_getElem (by simp; omega)⟩
    obtain ⟨r, hr⟩ := hsome
    have hg := (gen _ hpw id r hr).1 htw
    simp only [hr]
    constructor
    · intro h
      split at h
      · simp at h
      · injection h with h; subst h
        exact ⟨r, hr, hg.1, by omega⟩
    · rintro ⟨r', hr', h1, h2⟩
      -- the block is unique
      have hk : k = id := by
        rcases Nat.lt_trichotomy k id with h | h | h
        · exfalso
          have := List.pairwise_iff_getElem.1 hpw k id
            (by simp; have := (List.getElem?_eq_some_iff.1 hr').1; simpa using this)
            (by simp; have := (List.getElem?_eq_some_iff.1 hr).1; simpa using this) h
          rw [(List.getElem?_eq_some_iff.1 hr').2, (List.getElem?_eq_some_iff.1 hr).2] at this
          omega
        · exact h
        · exfalso
          by_cases he : k = id + 1
          · subst he
            have := hg.2 r' hr'; omega
          · have h1k := (List.getElem?_eq_some_iff.1 hr').1
            have hlt : id + 1 < (a :: rs).length := by omega
            have h3 := hg.2 _ (List.getElem?_eq_getElem hlt)
            have := List.pairwise_iff_getElem.1 hpw (id + 1) k hlt h1k (by omega)
            rw [(List.getElem?_eq_some_iff.1 hr').2] at this
            omega
      subst hk
      rw [hr] at hr'; injection hr' with hr'; subst hr'
      rw [if_neg (by omega)]

end Verif.GenBB
