import Verif.GenBB.Decode
import Verif.Emit.Lemmas
/-!
# C15, C16: basic blocks and their graph

`flow`, `isTerminator`, `leader` and `Legal` are in Verif/Spec/Cfg.lean.
-/
set_option linter.unusedSimpArgs false
namespace Verif.GenBB
open Verif Verif.Bpf

/-- No jump goes back to the very first slot. -/
def NoJumpToStart (P : List Slot) : Prop :=
  ∀ (p : Nat) (s : Slot) (i : Instr) (off : BitVec 16), P[p]? = some s → decode s = some i → jumpOffset i = some off →
    (p : Int) + 1 + off.toInt ≠ 0

theorem zeroJump_same {s : Slot} (h : s.off ≠ 0) : zeroJump s = s := by
  simp only [zeroJump]
  rw [if_neg]
  simp only [Bool.and_eq_true, beq_iff_eq, not_and]
  exact fun _ => h

theorem flowI_ja {p : Int} {off : BitVec 16} : flowI p (some (.ja off)) = [p + 1 + off.toInt] := rfl
theorem flowI_jcc {p : Int} {w c d src} {off : BitVec 16} :
    flowI p (some (.jcc w c d src off)) = [p + 1 + off.toInt, p + 1] := rfl
theorem flowI_exit {p : Int} : flowI p (some .exit) = [] := rfl
theorem flowI_other {p : Int} {o : Option Instr} (h : ∀ i, o = some i → i ≠ .exit ∧ jumpOffset i = none) :
    flowI p o = [p + 1] := by
  cases o with
  | none => rfl
  | some i =>
    have := h i rfl
    cases i <;> first | rfl | simp [jumpOffset] at this
theorem flow_get {P : List Slot} {p : Nat} {s : Slot} (h : P[p]? = some s) : flow P p = flowI p (decode s) := by
  simp only [flow, h]

section
variable {P : List Slot}

theorem get_map {p : Nat} {s' : Slot} (h : (P.map zeroJump)[p]? = some s') :
    ∃ s, P[p]? = some s ∧ s' = zeroJump s := by
  rw [List.getElem?_map, Option.map_eq_some_iff] at h
  obtain ⟨s, h1, h2⟩ := h
  exact ⟨s, h1, h2.symm⟩

theorem lt_of_get {α} {l : List α} {p : Nat} {s : α} (h : l[p]? = some s) : p < l.length :=
  (List.getElem?_eq_some_iff.1 h).1

/-- The six kinds of slots of a legal program, and what the rewritten slot looks like. -/
theorem slot_cases (hl : Legal P) {p : Nat} {s : Slot} (hs : P[p]? = some s) :
    (zeroJump s = s ∧ isJa s.code = true ∧ isCond s.code = false ∧ isExit s.code = false ∧ isBreak s.code = true ∧
      cls s.code = 5 ∧ decode s = some (.ja s.off)) ∨
    (isCond s.code = true ∧ ∃ w c d src, decode s = some (.jcc w c d src s.off)) ∨
    (zeroJump s = s ∧ isJa s.code = false ∧ isCond s.code = false ∧ isExit s.code = true ∧ isBreak s.code = true ∧
      decode s = some .exit) ∨
    (zeroJump s = s ∧ isJa s.code = false ∧ isCond s.code = false ∧ isExit s.code = false ∧ isBreak s.code = false ∧
      ∀ i, decode s = some i → i ≠ .exit ∧ jumpOffset i = none) := by
  rcases hl.enc s (List.mem_of_getElem? hs) with h0 | h
  · right; right; right
    have : isJa s.code = false ∧ isCond s.code = false ∧ isExit s.code = false ∧ isBreak s.code = false := by
      rw [h0]; decide
    refine ⟨by simp [zeroJump, this.2.1], this.1, this.2.1, this.2.2.1, this.2.2.2, ?_⟩
    rw [decode_zero h0]; simp
  · obtain ⟨i, hi⟩ := Option.isSome_iff_exists.1 h
    obtain ⟨d1, d2, d3, d4, d5⟩ := decode_class hi
    have db := decode_break hi
    by_cases hja : isJa s.code = true
    · left
      have := isJa_not hja
      refine ⟨by simp [zeroJump, this.1], hja, this.1, this.2.1, this.2.2, d4 hja, ?_⟩
      rw [hi, d1.1 hja]
    · by_cases hc : isCond s.code = true
      · right; left
        obtain ⟨w, c, d, src, e⟩ := d2.1 hc
        exact ⟨hc, w, c, d, src, by rw [hi, e]⟩
      · by_cases hx : isExit s.code = true
        · right; right; left
          refine ⟨by simp [zeroJump, hc], by simpa using hja, by simpa using hc, hx, (isExit_not hx).2.2, ?_⟩
          rw [hi, d3.1 hx]
        · right; right; right
          simp only [Bool.not_eq_true] at hja hc hx
          refine ⟨by simp [zeroJump, hc], hja, hc, hx, by rw [db]; simp [hja, hc, hx], ?_⟩
          intro j hj
          rw [hi] at hj; injection hj with hj; subst hj
          refine ⟨fun h => by rw [d3.2 h] at hx; simp at hx, ?_⟩
          cases h : jumpOffset i with
          | none => rfl
          | some off =>
            exfalso
            have e := d5 off h
            subst e
            cases i <;> simp [jumpOffset] at h
            · subst h; rw [d1.2 rfl] at hja; simp at hja
            · subst h; rw [d2.2 ⟨_, _, _, _, rfl⟩] at hc; simp at hc

theorem ok_of_legal (hl : Legal P) (hn : NoJumpToStart P) (hs : P.length ≤ 32768) : Ok (P.map zeroJump) := by
  have len : (P.map zeroJump).length = P.length := by simp
  have tg : ∀ (p : Nat) (off : BitVec 16), p < P.length → target p off = p + off.toInt + 1 :=
    fun p off h => target_eq (by omega) off
  refine ⟨?_, ?_, ?_⟩
  · intro p s' h hj
    obtain ⟨s, h1, rfl⟩ := get_map h
    have hp := lt_of_get h1
    rw [tg p _ hp, len]
    rcases slot_cases hl h1 with ⟨e, a1, a2, a3, a4, a5, a6⟩ | ⟨a1, w, c, d, src, a2⟩ | ⟨e, a1, a2, a3, a4, a5⟩ | ⟨e, a1, a2, a3, a4, a5⟩
    · rw [e]
      have h2 := hl.jumps p s _ s.off h1 a6 rfl
      have h3 := hn p s _ s.off h1 a6 rfl
      omega
    · have h2 := hl.jumps p s _ s.off h1 a2 rfl
      have h3 := hn p s _ s.off h1 a2 rfl
      by_cases h0 : s.off = 0
      · have : (zeroJump s).off = 0 := by simp [zeroJump, a1, h0]
        rw [this]; simp; omega
      · have : zeroJump s = s := zeroJump_same h0
        rw [this]; omega
    · rw [e, a1, a2] at hj; simp at hj
    · rw [e, a1, a2] at hj; simp at hj
  · intro p s' h hj
    obtain ⟨s, h1, rfl⟩ := get_map h
    rcases slot_cases hl h1 with ⟨e, a1, a2, a3, a4, a5, a6⟩ | ⟨a1, w, c, d, src, a2⟩ | ⟨e, a1, a2, a3, a4, a5⟩ | ⟨e, a1, a2, a3, a4, a5⟩
    · rw [e]; exact a5
    · by_cases h0 : s.off = 0
      · have : (zeroJump s).code = 5 := by simp [zeroJump, a1, h0]
        rw [this]; rfl
      · have : zeroJump s = s := zeroJump_same h0
        rw [this] at hj
        rw [(isCond_not a1).1] at hj; simp at hj
    · rw [e, a1] at hj; simp at hj
    · rw [e, a1] at hj; simp at hj
  · intro p s' h hj
    obtain ⟨s, h1, rfl⟩ := get_map h
    have hp := lt_of_get h1
    rw [tg p _ hp]
    have h0 : s.off ≠ 0 := by
      intro h0
      have hc : isCond s.code = true := by
        by_cases hc : isCond s.code = true
        · exact hc
        · have : zeroJump s = s := by simp [zeroJump, hc]
          rw [this] at hj; exact hj
      have : (zeroJump s).code = 5 := by simp [zeroJump, hc, h0]
      rw [this] at hj
      exact absurd hj (by decide)
    have : zeroJump s = s := zeroJump_same h0
    rw [this]
    intro h
    have h2 : s.off.toInt = 0 := by omega
    apply h0
    have : s.off.toInt = (0 : BitVec 16).toInt := by rw [h2]; rfl
    exact BitVec.toInt_inj.1 this

theorem flow_iff (hl : Legal P) (hs : P.length ≤ 32768) {p : Nat} (hp : p < P.length) (q : Nat) :
    (JumpTo (P.map zeroJump) p q ∨ FallTo (P.map zeroJump) p q) ↔ (q : Int) ∈ flow P p := by
  have h1 : P[p]? = some P[p] := List.getElem?_eq_getElem hp
  generalize P[p] = s at h1
  have h2 : (P.map zeroJump)[p]? = some (zeroJump s) := by simp [h1]
  have tg : ∀ (off : BitVec 16), target p off = p + off.toInt + 1 := fun off => target_eq (by omega) off
  have e1 : JumpTo (P.map zeroJump) p q ↔ ((isJa (zeroJump s).code = true ∧ target p (zeroJump s).off = q) ∨
      (isCond (zeroJump s).code = true ∧ (target p (zeroJump s).off = q ∨ p + 1 = q))) := by
    simp [JumpTo, h2]
  have e2 : FallTo (P.map zeroJump) p q ↔ p + 1 = q ∧ isBreak (zeroJump s).code = false := by
    simp only [FallTo, h2]; simp
  rw [e1, e2]
  rw [flow_get h1]
  rcases slot_cases hl h1 with ⟨e, a1, a2, a3, a4, a5, a6⟩ | ⟨a1, w, c, d, src, a2⟩ | ⟨e, a1, a2, a3, a4, a5⟩ | ⟨e, a1, a2, a3, a4, a5⟩
  · simp only [e, a1, a2, a4, a6, tg, flowI_ja]
    simp; omega
  · by_cases h0 : s.off = 0
    · have e : zeroJump s = ⟨5, 0, 0, 0, 0⟩ := by simp [zeroJump, a1, h0]
      have b1 : isJa (5 : BitVec 8) = true := by decide
      have b2 : isCond (5 : BitVec 8) = false := by decide
      have b3 : isBreak (5 : BitVec 8) = true := by decide
      simp only [e, a2, h0, tg, b1, b2, b3, flowI_jcc]
      simp; omega
    · have e : zeroJump s = s := zeroJump_same h0
      have := isCond_not a1
      simp only [e, a2, tg, a1, this.1, this.2.2, flowI_jcc]
      simp; omega
  · simp only [e, a1, a2, a4, a5, flowI_exit]
    simp
  · simp only [e, a1, a2, a4, flowI_other a5]
    simp; omega

theorem end_iff (hl : Legal P) {p : Nat} {s : Slot} (h1 : P[p]? = some s) :
    isEnd (zeroJump s).code = true ↔ isTerminator P p := by
  rw [zeroJump_code]
  simp only [isTerminator, h1, isEnd]
  rcases slot_cases hl h1 with ⟨e, a1, a2, a3, a4, a5, a6⟩ | ⟨a1, w, c, d, src, a2⟩ | ⟨e, a1, a2, a3, a4, a5⟩ | ⟨e, a1, a2, a3, a4, a5⟩
  · simp [a1, a6, jumpOffset]
  · simp [a1, a2, jumpOffset]
  · simp [a3, a5]
  · simp only [a1, a2, a3]
    simp
    intro t ht
    have := a5 t ht
    exact ⟨this.1, this.2⟩

theorem lead_iff (hl : Legal P) (hs : P.length ≤ 32768) (q : Nat) :
    (q = 0 ∨ ∃ p, Lead (P.map zeroJump) p q) ↔ leader P q := by
  have tg : ∀ (p : Nat) (off : BitVec 16), p < P.length → target p off = p + off.toInt + 1 :=
    fun p off h => target_eq (by omega) off
  constructor
  · rintro (rfl | ⟨p, h⟩)
    · exact Or.inl rfl
    · right
      have hsl : ∃ s, P[p]? = some s := by
        rcases h with ⟨t, h, _⟩ | ⟨t, h, _⟩
        · obtain ⟨s, h, _⟩ := get_map h; exact ⟨s, h⟩
        · obtain ⟨s, h, _⟩ := get_map h; exact ⟨s, h⟩
      obtain ⟨s, h1⟩ := hsl
      have hp := lt_of_get h1
      have h2 : (P.map zeroJump)[p]? = some (zeroJump s) := by simp [h1]
      have e1 : Lead (P.map zeroJump) p q ↔ (((isJa (zeroJump s).code = true ∧ target p (zeroJump s).off = q) ∨
          (isCond (zeroJump s).code = true ∧ (target p (zeroJump s).off = q ∨ p + 1 = q))) ∨
          (isExit (zeroJump s).code = true ∧ q = p + 1 ∧ q < P.length)) := by
        simp only [Lead, JumpTo, h2]; simp
      rw [e1] at h
      simp only [tg p _ hp] at h
      rcases slot_cases hl h1 with ⟨e, a1, a2, a3, a4, a5, a6⟩ | ⟨a1, w, c, d, src, a2⟩ | ⟨e, a1, a2, a3, a4, a5⟩ | ⟨e, a1, a2, a3, a4, a5⟩
      · simp [e, a1, a2, a3] at h
        exact ⟨p, s, _, h1, a6, Or.inl ⟨s.off, rfl, by omega⟩⟩
      · refine ⟨p, s, _, h1, a2, ?_⟩
        by_cases h0 : s.off = 0
        · have e : zeroJump s = ⟨5, 0, 0, 0, 0⟩ := by simp [zeroJump, a1, h0]
          have b1 : isJa (5 : BitVec 8) = true := by decide
          have b2 : isCond (5 : BitVec 8) = false := by decide
          have b3 : isExit (5 : BitVec 8) = false := by decide
          simp only [e, b1, b2, b3] at h
          simp at h
          exact Or.inr (Or.inl ⟨_, _, _, _, _, rfl, by omega⟩)
        · have e : zeroJump s = s := zeroJump_same h0
          have hn := isCond_not a1
          simp only [e, a1, hn.1, hn.2.1] at h
          simp at h
          rcases h with h | h
          · exact Or.inl ⟨s.off, rfl, by omega⟩
          · exact Or.inr (Or.inl ⟨_, _, _, _, _, rfl, by omega⟩)
      · simp [e, a1, a2, a3] at h
        exact ⟨p, s, _, h1, a5, Or.inr (Or.inr ⟨rfl, h.1, h.2⟩)⟩
      · simp [e, a1, a2, a3] at h
  · rintro (rfl | ⟨p, s, i, h1, h2, h3⟩)
    · exact Or.inl rfl
    · right
      refine ⟨p, ?_⟩
      have hp := lt_of_get h1
      have hm : (P.map zeroJump)[p]? = some (zeroJump s) := by simp [h1]
      rcases slot_cases hl h1 with ⟨e, a1, a2, a3, a4, a5, a6⟩ | ⟨a1, w, c, d, src, a2⟩ | ⟨e, a1, a2, a3, a4, a5⟩ | ⟨e, a1, a2, a3, a4, a5⟩
      · rw [a6] at h2; injection h2 with h2; subst h2
        rcases h3 with ⟨off, h3, h4⟩ | ⟨_, _, _, _, _, h3, _⟩ | ⟨h3, _⟩
        · simp [jumpOffset] at h3; subst h3
          exact Or.inl ⟨_, hm, Or.inl ⟨by rw [e]; exact a1, by rw [e, tg p _ hp]; omega⟩⟩
        · simp at h3
        · simp at h3
      · rw [a2] at h2; injection h2 with h2; subst h2
        by_cases h0 : s.off = 0
        · have e : zeroJump s = ⟨5, 0, 0, 0, 0⟩ := by simp [zeroJump, a1, h0]
          have hq : q = p + 1 := by
            rcases h3 with ⟨off, h3, h4⟩ | ⟨_, _, _, _, _, _, h3⟩ | ⟨h3, _⟩
            · simp [jumpOffset] at h3; subst h3; rw [h0] at h4; simp at h4; omega
            · exact h3
            · simp at h3
          refine Or.inl ⟨_, hm, Or.inl ⟨by rw [e]; rfl, by rw [e, tg p _ hp]; simp; omega⟩⟩
        · have e : zeroJump s = s := zeroJump_same h0
          rcases h3 with ⟨off, h3, h4⟩ | ⟨_, _, _, _, _, _, h3⟩ | ⟨h3, _⟩
          · simp [jumpOffset] at h3; subst h3
            exact Or.inl ⟨_, hm, Or.inr ⟨by rw [e]; exact a1, Or.inl (by rw [e, tg p _ hp]; omega)⟩⟩
          · exact Or.inl ⟨_, hm, Or.inr ⟨by rw [e]; exact a1, Or.inr h3.symm⟩⟩
          · simp at h3
      · rw [a5] at h2; injection h2 with h2; subst h2
        rcases h3 with ⟨off, h3, h4⟩ | ⟨_, _, _, _, _, h3, _⟩ | ⟨_, h3, h4⟩
        · simp [jumpOffset] at h3
        · simp at h3
        · exact Or.inr ⟨_, hm, by rw [e]; exact a3, h3, by simpa using h4⟩
      · have := a5 i h2
        rcases h3 with ⟨off, h3, h4⟩ | ⟨_, _, _, _, _, h3, _⟩ | ⟨h3, _⟩
        · rw [this.2] at h3; simp at h3
        · rw [h3] at this; simp [jumpOffset] at this
        · exact absurd h3 this.1

/-! ## Everything about the result -/

structure Char (P : List Slot) (rs : List (Nat × Nat × List Nat)) : Prop where
  pw : rs.Pairwise (fun a b => a.1 < b.1 ∧ a.2.1 ≤ b.1)
  head : ∀ r, rs.head? = some r → r.1 = 0
  starts : ∀ q, (∃ r ∈ rs, r.1 = q) ↔ leader P q
  preds : ∀ r ∈ rs, ∀ p, p ∈ r.2.2 ↔ p < P.length ∧ (r.1 : Int) ∈ flow P p
  pnodup : ∀ r ∈ rs, r.2.2.Nodup
  each : ∀ r ∈ rs, r.1 ≤ r.2.1 ∧ r.2.1 ≤ P.length ∧ (r.1 < P.length → r.1 < r.2.1) ∧
    (∀ p, r.1 ≤ p → p + 1 < r.2.1 → ¬ isTerminator P p) ∧
    (r.2.1 < P.length → (isTerminator P (r.2.1 - 1) ∧ r.1 < r.2.1) ∨ ∃ r' ∈ rs, r'.1 = r.2.1)

theorem genBB_char (hl : Legal P) (hn : NoJumpToStart P) (hs : P.length ≤ 32768) :
    ∃ rs, genBB P = .ok (build (P.map zeroJump) rs) ∧ Char P rs := by
  have hok := ok_of_legal hl hn hs
  obtain ⟨es, h1, hi⟩ := scan_inv hok (P.map zeroJump) [] [] rfl
    ⟨by simp, by simp, by simp, by simp, by simp⟩
  have hlen : (P.map zeroJump).length = P.length := by simp
  have hnd : ((es ++ [(⟨0, []⟩ : Ent)]).map (·.pos)).Nodup := by
    rw [List.map_append, List.nodup_append]
    refine ⟨hi.nodup, by simp, ?_⟩
    intro a ha b hb
    simp at hb; subst hb
    rintro rfl
    obtain ⟨e, h2, h3⟩ := List.mem_map.1 ha
    have := (hi.le e h2).1; omega
  have hsort := sortEnts_sorted hnd
  have hr := cut_ranges (P.map zeroJump) _ hsort (by
    intro e he
    rw [sortEnts_mem] at he
    simp only [List.mem_append, List.mem_singleton] at he
    rcases he with he | rfl
    · exact (hi.le e he).2
    · simp)
  refine ⟨cut (P.map zeroJump) (sortEnts (es ++ [⟨0, []⟩])), ?_, ?_⟩
  · simp only [genBB]
    rw [show scan (P.map zeroJump) [] 0 (P.map zeroJump) = .ok es from h1]
    rfl
  · generalize hrs : cut (P.map zeroJump) (sortEnts (es ++ [⟨0, []⟩])) = rs at hr
    have hstart : ∀ q, (∃ r ∈ rs, r.1 = q) ↔ q = 0 ∨ q ∈ es.map (·.pos) := by
      intro q
      have : (∃ r ∈ rs, r.1 = q) ↔ q ∈ (rs.map (fun r => (r.1, r.2.2))).map Prod.fst := by simp
      rw [this, hr.ents]
      simp only [List.map_map, List.mem_map, Function.comp_def, sortEnts_mem, List.mem_append, List.mem_singleton]
      constructor
      · rintro ⟨e, he | rfl, h⟩
        · exact Or.inr ⟨e, he, h⟩
        · exact Or.inl h.symm
      · rintro (rfl | ⟨e, he, h⟩)
        · exact ⟨_, Or.inr rfl, rfl⟩
        · exact ⟨e, Or.inl he, h⟩
    have hpreds : ∀ r ∈ rs, ∃ e ∈ es ++ [⟨0, []⟩], r.1 = e.pos ∧ r.2.2 = e.preds := by
      intro r hr'
      have : (r.1, r.2.2) ∈ rs.map (fun r => (r.1, r.2.2)) := List.mem_map.2 ⟨r, hr', rfl⟩
      rw [hr.ents] at this
      obtain ⟨e, he, h⟩ := List.mem_map.1 this
      simp at h
      exact ⟨e, sortEnts_mem.1 he, h.1.symm, h.2.symm⟩
    refine ⟨hr.pw, ?_, ?_, ?_, ?_, ?_⟩
    · intro r hr0
      obtain ⟨r', h2, h3⟩ := (hstart 0).2 (Or.inl rfl)
      cases rs with
      | nil => simp at hr0
      | cons a rs =>
        simp at hr0; subst hr0
        rcases List.mem_cons.1 h2 with rfl | h2
        · exact h3
        · have := (List.pairwise_cons.1 hr.pw).1 r' h2; omega
    · intro q
      rw [hstart q, ← lead_iff hl hs q, hi.pos q]
      constructor
      · rintro (h | ⟨p, h | h⟩)
        · exact Or.inl h
        · exact h.elim
        · exact Or.inr ⟨p, h.2⟩
      · rintro (h | ⟨p, h⟩)
        · exact Or.inl h
        · refine Or.inr ⟨p, Or.inr ⟨?_, h⟩⟩
          rcases h with ⟨s, h, _⟩ | ⟨s, h, _⟩ <;> exact lt_of_get h
    · intro r hr' p
      obtain ⟨e, he, h2, h3⟩ := hpreds r hr'
      rw [h3, h2]
      simp only [List.mem_append, List.mem_singleton] at he
      rcases he with he | rfl
      · rw [hi.preds e he p]
        constructor
        · rintro (h | h | h)
          · exact h.elim
          · have hp : p < P.length := by rw [← hlen]; exact h.1
            exact ⟨hp, (flow_iff hl hs hp _).1 (Or.inl h.2)⟩
          · have hp : p < P.length := by
              obtain ⟨_, s, h, _⟩ := h
              rw [← hlen]; exact lt_of_get h
            exact ⟨hp, (flow_iff hl hs hp _).1 (Or.inr h)⟩
        · rintro ⟨hp, h⟩
          rcases (flow_iff hl hs hp _).2 h with h | h
          · exact Or.inr (Or.inl ⟨by rw [hlen]; exact hp, h⟩)
          · exact Or.inr (Or.inr h)
      · simp only [List.not_mem_nil, false_iff, not_and]
        intro hp h
        rcases (flow_iff hl hs hp 0).2 h with ⟨s, h, hj⟩ | h
        · rcases hj with ⟨h4, h5⟩ | ⟨h4, h5 | h5⟩
          · have := hok.tgt p s h (Or.inl h4); omega
          · have := hok.tgt p s h (Or.inr h4); omega
          · omega
        · have := h.1; omega
    · intro r hr'
      obtain ⟨e, he, h2, h3⟩ := hpreds r hr'
      rw [h3]
      simp only [List.mem_append, List.mem_singleton] at he
      rcases he with he | rfl
      · exact hi.pnodup e he
      · simp
    · intro r hr'
      obtain ⟨j1, j2, j3, j4, j5⟩ := hr.each r hr'
      rw [hlen] at j2 j3 j5
      refine ⟨j1, j2, j3, ?_, ?_⟩
      · intro p h2 h3 ht
        have hp : p < P.length := by omega
        have hm : (P.map zeroJump)[p]? = some (zeroJump P[p]) := by simp [List.getElem?_eq_getElem hp]
        have := j4 p _ h2 h3 hm
        rw [(end_iff hl (List.getElem?_eq_getElem hp)).2 ht] at this
        simp at this
      · intro h
        rcases j5 h with ⟨s', h2, h3, h4⟩ | h
        · obtain ⟨s, h5, rfl⟩ := get_map h2
          exact Or.inl ⟨(end_iff hl h5).1 h3, h4⟩
        · exact Or.inr h

theorem build_get {P : List Slot} {rs : List (Nat × Nat × List Nat)} {k : Nat} {b : Blk} :
    (build P rs)[k]? = some b ↔ ∃ r, rs[k]? = some r ∧
      b = { start := r.1, stop := r.2.1, insns := readInsns P r.2.1 (r.2.1 - r.1) r.1, preds := predIds rs r,
            succs := succIds rs k } := by
  simp only [build, List.getElem?_map, Option.map_eq_some_iff]
  constructor
  · rintro ⟨x, h1, rfl⟩
    rw [List.getElem?_zipIdx, Option.map_eq_some_iff] at h1
    obtain ⟨r, h1, rfl⟩ := h1
    exact ⟨r, h1, by simp⟩
  · rintro ⟨r, h1, rfl⟩
    refine ⟨(r, k), ?_, rfl⟩
    rw [List.getElem?_zipIdx, h1]; simp

theorem build_mem {P : List Slot} {rs : List (Nat × Nat × List Nat)} {b : Blk} (h : b ∈ build P rs) :
    ∃ r ∈ rs, b.start = r.1 ∧ b.stop = r.2.1 := by
  obtain ⟨k, hk⟩ := List.getElem?_of_mem h
  obtain ⟨r, h1, rfl⟩ := build_get.1 hk
  exact ⟨r, List.mem_of_getElem? h1, rfl, rfl⟩

theorem mem_build {P : List Slot} {rs : List (Nat × Nat × List Nat)} {r} (h : r ∈ rs) :
    ∃ b ∈ build P rs, b.start = r.1 ∧ b.stop = r.2.1 := by
  obtain ⟨k, hk⟩ := List.getElem?_of_mem h
  exact ⟨_, List.mem_of_getElem? (build_get.2 ⟨r, hk, rfl⟩), rfl, rfl⟩

/-- Slot `q` lies in some block. -/
def Covered (bs : List Blk) (q : Nat) : Prop := ∃ b ∈ bs, b.start ≤ q ∧ q < b.stop

theorem covered_flow (hl : Legal P) (hs : P.length ≤ 32768) {rs} (hc : Char P rs) {p q : Nat}
    (hp : ∃ r ∈ rs, r.1 ≤ p ∧ p < r.2.1) (hf : (q : Int) ∈ flow P p) (hq : q < P.length) :
    ∃ r ∈ rs, r.1 ≤ q ∧ q < r.2.1 := by
  obtain ⟨r, hr, h1, h2⟩ := hp
  obtain ⟨e1, e2, e3, e4, e5⟩ := hc.each r hr
  have hpl : p < P.length := by omega
  by_cases hlead : leader P q
  · obtain ⟨r', h3, h4⟩ := (hc.starts q).2 hlead
    obtain ⟨f1, f2, f3, f4, f5⟩ := hc.each r' h3
    exact ⟨r', h3, by omega, by have := f3 (by omega); omega⟩
  · -- not a leader: straight-line flow
    have h1s : P[p]? = some P[p] := List.getElem?_eq_getElem hpl
    generalize P[p] = s at h1s
    have hqp : q = p + 1 ∧ ¬ isTerminator P p := by
      have hf' := hf
      rw [flow_get h1s] at hf'
      rcases slot_cases hl h1s with ⟨e, a1, a2, a3, a4, a5, a6⟩ | ⟨a1, w, c, d, src, a2⟩ | ⟨e, a1, a2, a3, a4, a5⟩ | ⟨e, a1, a2, a3, a4, a5⟩
      · exfalso; apply hlead
        rw [a6, flowI_ja] at hf'
        exact Or.inr ⟨p, s, _, h1s, a6, Or.inl ⟨_, rfl, by simpa using hf'⟩⟩
      · exfalso; apply hlead
        rw [a2, flowI_jcc] at hf'
        simp only [List.mem_cons, List.not_mem_nil, or_false] at hf'
        refine Or.inr ⟨p, s, _, h1s, a2, ?_⟩
        rcases hf' with h | h
        · exact Or.inl ⟨_, rfl, h⟩
        · exact Or.inr (Or.inl ⟨_, _, _, _, _, rfl, by omega⟩)
      · rw [a5, flowI_exit] at hf'; simp at hf'
      · refine ⟨?_, ?_⟩
        · rcases (flow_iff hl hs hpl q).2 hf with ⟨t, h, hj⟩ | h
          · have : (P.map zeroJump)[p]? = some (zeroJump s) := by simp [h1s]
            rw [this] at h; injection h with h; subst h
            rw [e] at hj; simp [a1, a2] at hj
          · exact h.1.symm
        · rw [← end_iff hl h1s, e]; simp [isEnd, a1, a2, a3]
    obtain ⟨rfl, hnt⟩ := hqp
    by_cases hin : p + 1 < r.2.1
    · exact ⟨r, hr, by omega, hin⟩
    · have hstop : r.2.1 = p + 1 := by omega
      rcases e5 (by omega) with ⟨h, _⟩ | ⟨r', h3, h4⟩
      · rw [hstop] at h; exact absurd h hnt
      · obtain ⟨f1, f2, f3, f4, f5⟩ := hc.each r' h3
        exact ⟨r', h3, by omega, by have := f3 (by omega); omega⟩

/-- A machine step follows `flow`, in one or (over a wide load) two slots. -/
theorem step_flow (hl : Legal P) {W : World} {pc : Nat} {pc' : Int} {σ σ' : St}
    (h : step W P pc σ = .goto pc' σ') : pc < P.length ∧
    (pc' ∈ flow P pc ∨ (((pc + 1 : Nat) : Int) ∈ flow P pc ∧ pc + 1 < P.length ∧ pc' ∈ flow P (pc + 1) ∧
      ∃ s d k, P[pc]? = some s ∧ decode s = some (.ldimm d k))) := by
  have hp : ¬ ((pc : Int) < 0) := by omega
  cases hs : P[pc]? with
  | none => simp only [step, if_neg hp, Int.toNat_natCast, hs] at h; simp at h
  | some s =>
    refine ⟨lt_of_get hs, ?_⟩
    rw [flow_get hs]
    cases hd : decode s with
    | none => simp only [step, if_neg hp, Int.toNat_natCast, hs, hd] at h; simp at h
    | some i =>
      cases i with
      | ja off =>
        simp only [step, if_neg hp, Int.toNat_natCast, hs, hd] at h
        injection h with h1 h2
        left; rw [flowI_ja, ← h1]; simp
      | jcc w c d src off =>
        simp only [step, if_neg hp, Int.toNat_natCast, hs, hd] at h
        left
        rw [flowI_jcc]
        split at h <;> (injection h with h1 h2; rw [← h1]; simp)
      | exit => simp only [step, if_neg hp, Int.toNat_natCast, hs, hd] at h; simp at h
      | ldimm d k =>
        obtain ⟨s2, h1, h2⟩ := hl.wide pc s d k hs hd
        simp only [step, if_neg hp, Int.toNat_natCast, hs, hd, h1] at h
        injection h with h3 h4
        right
        rw [flow_get h1, decode_zero h2]
        refine ⟨?_, lt_of_get h1, ?_, s, d, k, rfl, hd⟩
        · change ((pc + 1 : Nat) : Int) ∈ [(pc : Int) + 1]; simp
        · change pc' ∈ [((pc + 1 : Nat) : Int) + 1]; rw [← h3]; simp; omega
      | _ =>
        simp only [step, if_neg hp, Int.toNat_natCast, hs, hd] at h
        left
        split at h
        · simp at h
        · injection h with h1 h2; rw [← h1]; change (pc : Int) + 1 ∈ [(pc : Int) + 1]; simp

theorem covered_run (hl : Legal P) (hs : P.length ≤ 32768) {rs} (hc : Char P rs) {W : World} (n : Nat) :
    ∀ (p : Nat) (σ : St) (pc : Int) (τ : St), (∃ r ∈ rs, r.1 ≤ p ∧ p < r.2.1) → run W P n p σ = .goto pc τ →
    0 ≤ pc ∧ pc ≤ P.length ∧ (pc < P.length → ∃ r ∈ rs, (r.1 : Int) ≤ pc ∧ pc < r.2.1) := by
  induction n with
  | zero =>
    intro p σ pc τ hp h
    simp only [run] at h
    injection h with h1 h2; subst h1
    obtain ⟨r, hr, h1, h2⟩ := hp
    have := (hc.each r hr).2.1
    exact ⟨by omega, by omega, fun _ => ⟨r, hr, by omega, by omega⟩⟩
  | succ n ih =>
    intro p σ pc τ hp h
    simp only [run] at h
    cases hst : step W P p σ with
    | goto pc' σ' =>
      simp only [hst] at h
      obtain ⟨hpl, hfl⟩ := step_flow hl hst
      -- the new pc is inside the program or at its end
      have range : ∀ (p : Nat) (x : Int), p < P.length → x ∈ flow P p → 0 ≤ x ∧ x ≤ P.length := by
        intro p x hp hx
        have hps := List.getElem?_eq_getElem hp
        rw [flow_get hps] at hx
        cases hd : decode P[p] with
        | none => rw [hd] at hx; change x ∈ [(p : Int) + 1] at hx; simp at hx; omega
        | some i =>
          rw [hd] at hx
          have hj := fun off => hl.jumps p _ i off hps hd
          cases i with
          | ja off => have := hj off rfl; rw [flowI_ja] at hx; simp at hx; omega
          | jcc w c d src off => have := hj off rfl; rw [flowI_jcc] at hx; simp at hx; omega
          | exit => rw [flowI_exit] at hx; simp at hx
          | _ => change x ∈ [(p : Int) + 1] at hx; simp at hx; omega
      have hcov : 0 ≤ pc' ∧ pc' ≤ P.length ∧ (pc' < P.length → ∃ r ∈ rs, (r.1 : Int) ≤ pc' ∧ pc' < r.2.1) := by
        rcases hfl with hf | ⟨hf1, hlt, hf2, _⟩
        · obtain ⟨r1, r2⟩ := range p pc' hpl hf
          obtain ⟨q, rfl⟩ := Int.eq_ofNat_of_zero_le r1
          refine ⟨r1, r2, fun hq => ?_⟩
          obtain ⟨r, hr, h1, h2⟩ := covered_flow hl hs hc hp hf (by omega)
          exact ⟨r, hr, by omega, by omega⟩
        · obtain ⟨r1, r2⟩ := range (p + 1) pc' hlt hf2
          obtain ⟨q, rfl⟩ := Int.eq_ofNat_of_zero_le r1
          refine ⟨r1, r2, fun hq => ?_⟩
          have hm := covered_flow hl hs hc hp hf1 hlt
          obtain ⟨r, hr, h1, h2⟩ := covered_flow hl hs hc hm hf2 (by omega)
          exact ⟨r, hr, by omega, by omega⟩
      obtain ⟨c1, c2, c3⟩ := hcov
      obtain ⟨q, rfl⟩ := Int.eq_ofNat_of_zero_le c1
      by_cases hq : q < P.length
      · obtain ⟨r, hr, h1, h2⟩ := c3 (by omega)
        exact ih q σ' pc τ ⟨r, hr, by omega, by omega⟩ h
      · -- at the end: the machine cannot continue
        cases n with
        | zero =>
          simp only [run] at h
          injection h with h1 h2; subst h1
          exact ⟨c1, c2, c3⟩
        | succ n =>
          exfalso
          simp only [run] at h
          have : step W P (q : Int) σ' = .stuck := by
            have hp : ¬ ((q : Int) < 0) := by omega
            simp [step, hp, List.getElem?_eq_none (show P.length ≤ q by omega)]
          simp [this] at h
    | done x σ' => simp [hst] at h
    | stuck => simp [hst] at h

end

/-! ## C15 -/

/-- C15.  For every legal program of at most 32768 slots without a jump to slot 0, block building
succeeds; the blocks are disjoint intervals in increasing order; they start exactly at the leaders
(slot 0, jump targets, slots after conditional jumps and exits); no slot of a block but the last is a
jump or exit; and whatever the machine does, the slot it reaches lies in a block (or the machine has run
off the end).  Missing: longer programs and programs that jump to slot 0, see below. -/
theorem C15_partition_partial (P : List Slot) (hl : Legal P) (hn : NoJumpToStart P) (hs : P.length ≤ 32768) :
    ∃ bs, genBB P = .ok bs ∧
      bs.Pairwise (fun a b => a.start < b.start ∧ a.stop ≤ b.start) ∧
      (∀ q, (∃ b ∈ bs, b.start = q) ↔ leader P q) ∧
      (∀ b ∈ bs, b.start ≤ b.stop ∧ b.stop ≤ P.length ∧ (b.start < P.length → b.start < b.stop)) ∧
      (∀ b ∈ bs, ∀ p, b.start ≤ p → p + 1 < b.stop → ¬ isTerminator P p) ∧
      (P ≠ [] → ∀ (W : World) (σ : St) n pc τ, run W P n 0 σ = .goto pc τ → 0 ≤ pc ∧ pc ≤ P.length ∧
        (pc < P.length → ∃ b ∈ bs, (b.start : Int) ≤ pc ∧ pc < b.stop)) := by
  obtain ⟨rs, h1, hc⟩ := genBB_char hl hn hs
  refine ⟨_, h1, ?_, ?_, ?_, ?_, ?_⟩
  · rw [List.pairwise_iff_getElem]
    intro i j hi hj hij
    obtain ⟨r, h2, e2⟩ := build_get.1 (List.getElem?_eq_getElem hi)
    obtain ⟨r', h3, e3⟩ := build_get.1 (List.getElem?_eq_getElem hj)
    rw [e2, e3]
    have := List.pairwise_iff_getElem.1 hc.pw i j (lt_of_get h2) (lt_of_get h3) hij
    rw [(List.getElem?_eq_some_iff.1 h2).2, (List.getElem?_eq_some_iff.1 h3).2] at this
    exact this
  · intro q
    rw [← hc.starts q]
    constructor
    · rintro ⟨b, hb, h⟩
      obtain ⟨r, hr, e, _⟩ := build_mem hb
      exact ⟨r, hr, by omega⟩
    · rintro ⟨r, hr, h⟩
      obtain ⟨b, hb, e, _⟩ := mem_build (P := P.map zeroJump) hr
      exact ⟨b, hb, by omega⟩
  · intro b hb
    obtain ⟨r, hr, e1, e2⟩ := build_mem hb
    obtain ⟨f1, f2, f3, _⟩ := hc.each r hr
    rw [e1, e2]; exact ⟨f1, f2, f3⟩
  · intro b hb p h2 h3
    obtain ⟨r, hr, e1, e2⟩ := build_mem hb
    rw [e1] at h2; rw [e2] at h3
    exact (hc.each r hr).2.2.2.1 p h2 h3
  · intro hne W σ n pc τ h
    have h0 : ∃ r ∈ rs, r.1 ≤ 0 ∧ 0 < r.2.1 := by
      obtain ⟨r, hr, e⟩ := (hc.starts 0).2 (Or.inl rfl)
      have := (hc.each r hr).2.2.1 (by have := List.length_pos_iff.2 hne; omega)
      exact ⟨r, hr, by omega, by omega⟩
    obtain ⟨c1, c2, c3⟩ := covered_run hl hs hc n 0 σ pc τ h0 h
    refine ⟨c1, c2, fun hlt => ?_⟩
    obtain ⟨r, hr, h2, h3⟩ := c3 hlt
    obtain ⟨b, hb, e1, e2⟩ := mem_build (P := P.map zeroJump) hr
    exact ⟨b, hb, by omega, by omega⟩

/-! ## C16 -/

/-- C16.  Under the same conditions there is an edge from block `i` to block `j` iff control can go from
the last slot of `i` to the first slot of `j`; predecessor and successor lists agree and have no
duplicates. -/
theorem C16_edges_partial (P : List Slot) (hl : Legal P) (hn : NoJumpToStart P) (hs : P.length ≤ 32768) :
    ∃ bs, genBB P = .ok bs ∧ ∀ (i j : Nat) (a b : Blk), bs[i]? = some a → bs[j]? = some b →
      (j ∈ a.succs ↔ a.start < a.stop ∧ (b.start : Int) ∈ flow P (a.stop - 1)) ∧
      (j ∈ a.succs ↔ i ∈ b.preds) ∧ a.succs.Nodup ∧ b.preds.Nodup ∧
      (∀ k, k ∈ a.succs ∨ k ∈ b.preds → k < bs.length) := by
  obtain ⟨rs, h1, hc⟩ := genBB_char hl hn hs
  refine ⟨_, h1, ?_⟩
  have hpar := fun pos k => parent_spec hc.pw hc.head pos k
  -- the last slot is the only one that can lead to the start of a block
  have hlast : ∀ (r r' : Nat × Nat × List Nat) (p : Nat), r ∈ rs → r' ∈ rs → p ∈ r'.2.2 → r.1 ≤ p → p < r.2.1 →
      p = r.2.1 - 1 := by
    intro r r' p hr hr' hp hge hlt
    obtain ⟨hpl, hf⟩ := (hc.preds r' hr' p).1 hp
    obtain ⟨e1, e2, e3, e4, e5⟩ := hc.each r hr
    rcases Nat.lt_or_ge (p + 1) r.2.1 with h | h
    · exfalso
      have hnt := e4 p hge h
      have hs1 : P[p]? = some P[p] := List.getElem?_eq_getElem hpl
      have hend : isEnd (zeroJump P[p]).code = false := by
        have : ¬ isEnd (zeroJump P[p]).code = true := fun hx => hnt ((end_iff hl hs1).1 hx)
        simpa using this
      have hq : r'.1 = p + 1 := by
        rcases (flow_iff hl hs hpl _).2 hf with ⟨t, ht, hj⟩ | hj
        · have : (P.map zeroJump)[p]? = some (zeroJump P[p]) := by simp [hs1]
          rw [this] at ht; injection ht with ht; subst ht
          simp [isEnd] at hend
          simp [hend] at hj
        · exact hj.1.symm
      obtain ⟨k, hk⟩ := List.getElem?_of_mem hr
      obtain ⟨k', hk'⟩ := List.getElem?_of_mem hr'
      rcases Nat.lt_trichotomy k k' with hkk | hkk | hkk
      · have := List.pairwise_iff_getElem.1 hc.pw k k' (lt_of_get hk) (lt_of_get hk') hkk
        rw [(List.getElem?_eq_some_iff.1 hk).2, (List.getElem?_eq_some_iff.1 hk').2] at this
        omega
      · subst hkk; rw [hk] at hk'; injection hk' with hk'; subst hk'; omega
      · have := List.pairwise_iff_getElem.1 hc.pw k' k (lt_of_get hk') (lt_of_get hk) hkk
        rw [(List.getElem?_eq_some_iff.1 hk).2, (List.getElem?_eq_some_iff.1 hk').2] at this
        omega
    · omega
  -- predecessors
  have hpred : ∀ (i : Nat) (r r' : Nat × Nat × List Nat), rs[i]? = some r → r' ∈ rs →
      (i ∈ predIds rs r' ↔ r.1 < r.2.1 ∧ (r'.1 : Int) ∈ flow P (r.2.1 - 1)) := by
    intro i r r' hi hr'
    have hr := List.mem_of_getElem? hi
    simp only [predIds, List.mem_filterMap]
    constructor
    · rintro ⟨p, hp, h⟩
      obtain ⟨x, hx, h2, h3⟩ := (hpar p i).1 h
      rw [hi] at hx; injection hx with hx; subst hx
      have := hlast r r' p hr hr' hp h2 h3
      subst this
      exact ⟨by omega, ((hc.preds r' hr' _).1 hp).2⟩
    · rintro ⟨h2, h3⟩
      refine ⟨r.2.1 - 1, (hc.preds r' hr' _).2 ⟨?_, h3⟩, (hpar _ i).2 ⟨r, hi, by omega, by omega⟩⟩
      have := (hc.each r hr).2.1; omega
  have hpnd : ∀ r' ∈ rs, (predIds rs r').Nodup := by
    intro r' hr'
    have gen : ∀ (l : List Nat), (∀ p ∈ l, p ∈ r'.2.2) → l.Nodup → (l.filterMap (parent rs)).Nodup := by
      intro l
      induction l with
      | nil => simp
      | cons p l ih =>
        intro hm hnd
        rw [List.nodup_cons] at hnd
        have ih := ih (fun q hq => hm q (by simp [hq])) hnd.2
        cases hpp : parent rs p with
        | none => simp only [List.filterMap_cons, hpp]; exact ih
        | some k =>
          simp only [List.filterMap_cons, hpp]
          rw [List.nodup_cons]
          refine ⟨?_, ih⟩
          intro hk
          obtain ⟨q, hq, hqk⟩ := List.mem_filterMap.1 hk
          obtain ⟨x, hx, h2, h3⟩ := (hpar p k).1 hpp
          obtain ⟨y, hy, h4, h5⟩ := (hpar q k).1 hqk
          rw [hx] at hy; injection hy with hy; subst hy
          have e1 := hlast x r' p (List.mem_of_getElem? hx) hr' (hm p (by simp)) h2 h3
          have e2 := hlast x r' q (List.mem_of_getElem? hx) hr' (hm q (by simp [hq])) h4 h5
          rw [e1.trans e2.symm] at hnd
          exact hnd.1 hq
    exact gen _ (fun p hp => hp) (hc.pnodup r' hr')
  have hsucc : ∀ i j, j ∈ succIds rs i ↔ ∃ r', rs[j]? = some r' ∧ i ∈ predIds rs r' := by
    intro i j
    simp only [succIds, List.mem_flatMap, List.mem_map, List.mem_filter, beq_iff_eq]
    constructor
    · rintro ⟨⟨r', k⟩, h2, x, ⟨h3, rfl⟩, rfl⟩
      rw [List.mem_iff_getElem?] at h2
      obtain ⟨n, h2⟩ := h2
      rw [List.getElem?_zipIdx, Option.map_eq_some_iff] at h2
      obtain ⟨y, h4, h5⟩ := h2
      simp at h5
      obtain ⟨rfl, rfl⟩ := h5
      exact ⟨y, h4, h3⟩
    · rintro ⟨r', h2, h3⟩
      refine ⟨(r', j), ?_, i, ⟨h3, rfl⟩, rfl⟩
      rw [List.mem_iff_getElem?]
      exact ⟨j, by rw [List.getElem?_zipIdx, h2]; simp⟩
  have hsnd : ∀ i, (succIds rs i).Nodup := by
    intro i
    have gen : ∀ (l : List (Nat × Nat × List Nat)) (n : Nat), (∀ r ∈ l, r ∈ rs) →
        ((l.zipIdx n).flatMap (fun r => ((predIds rs r.1).filter (· == i)).map (fun _ => r.2))).Nodup ∧
        ∀ x ∈ (l.zipIdx n).flatMap (fun r => ((predIds rs r.1).filter (· == i)).map (fun _ => r.2)), n ≤ x := by
      intro l
      induction l with
      | nil => simp
      | cons r l ih =>
        intro n hm
        obtain ⟨ih1, ih2⟩ := ih (n + 1) (fun r hr => hm r (by simp [hr]))
        have hone : ((predIds rs r).filter (· == i)).map (fun _ => n) = [] ∨
            ((predIds rs r).filter (· == i)).map (fun _ => n) = [n] := by
          have hnd := hpnd r (hm r (by simp))
          have : ∀ (l : List Nat), l.Nodup → (l.filter (· == i)).map (fun _ => n) = [] ∨
              (l.filter (· == i)).map (fun _ => n) = [n] := by
            intro l
            induction l with
            | nil => simp
            | cons x l ih =>
              intro hnd
              rw [List.nodup_cons] at hnd
              by_cases hx : x = i
              · subst hx
                right
                have : l.filter (· == x) = [] := by
                  rw [List.filter_eq_nil_iff]
                  intro a ha h
                  simp at h; subst h; exact hnd.1 ha
                simp [this]
              · simp [hx]
                have := ih hnd.2
                simpa using this
          exact this _ hnd
        simp only [List.zipIdx_cons, List.flatMap_cons]
        rcases hone with h | h
        · rw [h]; simp only [List.nil_append]
          exact ⟨ih1, fun x hx => by have := ih2 x hx; omega⟩
        · rw [h]
          constructor
          · simp only [List.singleton_append, List.nodup_cons]
            exact ⟨fun hx => by have := ih2 n hx; omega, ih1⟩
          · intro x hx
            simp only [List.singleton_append, List.mem_cons] at hx
            rcases hx with rfl | hx
            · exact Nat.le_refl _
            · have := ih2 x hx; omega
    exact (gen rs 0 (fun r hr => hr)).1
  intro i j a b ha hb
  obtain ⟨r, hi, rfl⟩ := build_get.1 ha
  obtain ⟨r', hj, rfl⟩ := build_get.1 hb
  have hr' := List.mem_of_getElem? hj
  have e1 : j ∈ succIds rs i ↔ i ∈ predIds rs r' := by
    rw [hsucc]
    constructor
    · rintro ⟨x, hx, h⟩
      rw [hj] at hx; injection hx with hx; subst hx; exact h
    · intro h; exact ⟨r', hj, h⟩
  refine ⟨?_, e1, hsnd i, hpnd r' hr', ?_⟩
  · rw [e1]; exact hpred i r r' hi hr'
  · have hlen : (build (P.map zeroJump) rs).length = rs.length := by simp [build]
    rw [hlen]
    rintro k (hk | hk)
    · obtain ⟨x, hx, _⟩ := (hsucc i k).1 hk
      exact lt_of_get hx
    · obtain ⟨p, _, hp⟩ := List.mem_filterMap.1 hk
      obtain ⟨x, hx, _⟩ := (hpar p k).1 hp
      exact lt_of_get hx

theorem flow_inside {P : List Slot} (hl : Legal P) {rs} (hc : Char P rs)
    {r : Nat × Nat × List Nat} (hr : r ∈ rs) {p q : Nat} (h1 : r.1 ≤ p) (h2 : p < r.2.1)
    (hf : (q : Int) ∈ flow P p) (hq : q < P.length) :
    (q = p + 1 ∧ q < r.2.1) ∨ (p = r.2.1 - 1 ∧ ∃ r' ∈ rs, r'.1 = q) := by
  obtain ⟨e1, e2, e3, e4, e5⟩ := hc.each r hr
  have hpl : p < P.length := by omega
  have hs1 : P[p]? = some P[p] := List.getElem?_eq_getElem hpl
  generalize P[p] = s at hs1
  have hf' := hf
  rw [flow_get hs1] at hf'
  have hterm : isTerminator P p → p = r.2.1 - 1 := by
    intro ht
    rcases Nat.lt_or_ge (p + 1) r.2.1 with h | h
    · exact absurd ht (e4 p h1 h)
    · omega
  rcases slot_cases hl hs1 with ⟨e, a1, a2, a3, a4, a5, a6⟩ | ⟨a1, w, c, d, src, a2⟩ | ⟨e, a1, a2, a3, a4, a5⟩ | ⟨e, a1, a2, a3, a4, a5⟩
  · rw [a6, flowI_ja] at hf'
    exact Or.inr ⟨hterm ⟨s, _, hs1, a6, Or.inr rfl⟩, (hc.starts q).2
      (Or.inr ⟨_, s, _, hs1, a6, Or.inl ⟨_, rfl, by simpa using hf'⟩⟩)⟩
  · rw [a2, flowI_jcc] at hf'
    simp only [List.mem_cons, List.not_mem_nil, or_false] at hf'
    refine Or.inr ⟨hterm ⟨s, _, hs1, a2, Or.inr rfl⟩, (hc.starts q).2 (Or.inr ⟨_, s, _, hs1, a2, ?_⟩)⟩
    rcases hf' with h | h
    · exact Or.inl ⟨_, rfl, h⟩
    · exact Or.inr (Or.inl ⟨_, _, _, _, _, rfl, by omega⟩)
  · rw [a5, flowI_exit] at hf'; simp at hf'
  · rw [flowI_other a5] at hf'
    have hqp : q = p + 1 := by simp at hf'; omega
    subst hqp
    rcases Nat.lt_or_ge (p + 1) r.2.1 with h | h
    · exact Or.inl ⟨rfl, h⟩
    · right
      have hst : r.2.1 = p + 1 := by omega
      refine ⟨by omega, ?_⟩
      have hnt : ¬ isTerminator P p := by rw [← end_iff hl hs1, e]; simp [isEnd, a1, a2, a3]
      rcases e5 (by omega) with ⟨h, _⟩ | h
      · rw [hst] at h; exact absurd h hnt
      · rw [hst] at h; exact h

/-- C16 for the machine: whatever instruction of a block is executed, the machine goes on in the same
block or at the start of a successor of that block (or has run off the end of the program).  A jump
into the middle of a wide load is excluded. -/
theorem C16_machine_partial (P : List Slot) (hl : Legal P) (hn : NoJumpToStart P) (hs : P.length ≤ 32768)
    (hw : ∀ (p : Nat) (s : Slot) d k, P[p]? = some s → decode s = some (.ldimm d k) → ¬ leader P (p + 1)) :
    ∃ bs, genBB P = .ok bs ∧ ∀ (W : World) (i : Nat) (a : Blk) (pc q : Nat) (σ σ' : St), bs[i]? = some a →
      a.start ≤ pc → pc < a.stop → step W P pc σ = .goto q σ' → q < P.length →
      (pc < q ∧ q < a.stop) ∨ (∃ j ∈ a.succs, ∃ b, bs[j]? = some b ∧ b.start = q) := by
  obtain ⟨bs, h1, h2⟩ := C16_edges_partial P hl hn hs
  obtain ⟨rs, h3, hc⟩ := genBB_char hl hn hs
  rw [h1] at h3; injection h3 with h3; subst h3
  refine ⟨_, h1, ?_⟩
  intro W i a pc q σ σ' hi hge hlt hst hq
  obtain ⟨r, hr, rfl⟩ := build_get.1 hi
  have hrm := List.mem_of_getElem? hr
  simp only at hge hlt
  have fin : ∀ (p : Nat), pc ≤ p → p < r.2.1 → (q : Int) ∈ flow P p → (pc < q ∧ q < r.2.1) ∨
      (∃ j ∈ succIds rs i, ∃ b, (build (P.map zeroJump) rs)[j]? = some b ∧ b.start = q) := by
    intro p h3 h4 hf
    rcases flow_inside hl hc hrm (by omega) h4 hf hq with ⟨h5, h6⟩ | ⟨h5, r', hr', h6⟩
    · left; omega
    · right
      obtain ⟨j, hj⟩ := List.getElem?_of_mem hr'
      have hb := (build_get (P := P.map zeroJump)).2 ⟨r', hj, rfl⟩
      have := (h2 i j _ _ hi hb).1
      refine ⟨j, this.2 ⟨by simp only; omega, ?_⟩, _, hb, h6⟩
      simp only
      rw [h6, ← h5]; exact hf
  obtain ⟨hpl, hf | ⟨hf1, hlt1, hf2, s, d, k, hs1, hd⟩⟩ := step_flow hl hst
  · exact fin pc (Nat.le_refl _) hlt hf
  · have hnl := hw pc s d k hs1 hd
    rcases flow_inside hl hc hrm hge hlt hf1 hlt1 with ⟨_, h5⟩ | ⟨_, h5⟩
    · exact fin (pc + 1) (by omega) h5 hf2
    · exact absurd ((hc.starts _).1 h5) hnl

/-! ## C49: removing conditional jumps with offset 0 -/

/-- C49.  Before block building, conditional jumps to the next instruction are replaced by `ja +0`
(core/bpf_ir.c:370-392).  This never changes what the machine does. -/
theorem C49_zero_jumps (P : List Slot) (hl : Legal P) (W : World) (n : Nat) (pc : Int) (σ : St) :
    run W (P.map zeroJump) n pc σ = run W P n pc σ := by
  have hstep : ∀ pc σ, step W (P.map zeroJump) pc σ = step W P pc σ := by
    intro pc σ
    by_cases hneg : pc < 0
    · unfold step; rw [if_pos hneg, if_pos hneg]
    · cases hs : P[pc.toNat]? with
      | none =>
        have : (P.map zeroJump)[pc.toNat]? = none := by simp [hs]
        simp only [step, if_neg hneg, hs, this]
      | some s =>
        have hm : (P.map zeroJump)[pc.toNat]? = some (zeroJump s) := by simp [hs]
        by_cases hz : zeroJump s = s
        · rw [hz] at hm
          cases hd : decode s with
          | none => simp only [step, if_neg hneg, hs, hm, hd]
          | some i =>
            cases i with
            | ldimm d k =>
              obtain ⟨s2, h1, h2⟩ := hl.wide _ s d k hs hd
              have hm2 : (P.map zeroJump)[pc.toNat + 1]? = some s2 := by
                have : isCond s2.code = false := by rw [h2]; decide
                simp [h1, zeroJump, this]
              simp only [step, if_neg hneg, hs, hm, hd, h1, hm2]
            | _ => simp only [step, if_neg hneg, hs, hm, hd]
        · have hc : isCond s.code = true ∧ s.off = 0 := by
            have : (isCond s.code && s.off == 0) = true := by
              cases h : (isCond s.code && s.off == 0) with
              | true => rfl
              | false =>
                exfalso; apply hz
                simp only [zeroJump]; rw [if_neg]; rw [h]; simp
            simpa using this
          have hz' : zeroJump s = ⟨5, 0, 0, 0, 0⟩ := by simp [zeroJump, hc.1, hc.2]
          rw [hz'] at hm
          have hd' : decode ⟨5, 0, 0, 0, 0⟩ = some (.ja 0) := by decide +kernel
          rcases slot_cases hl hs with ⟨e, _⟩ | ⟨a1, w, c, d, src, a2⟩ | ⟨e, _⟩ | ⟨e, _⟩
          · exact absurd e hz
          · rw [hc.2] at a2
            simp only [step, if_neg hneg, hs, hm, hd', a2]
            have : (0 : BitVec 16).toInt = 0 := rfl
            split <;> simp [this]
          · exact absurd e hz
          · exact absurd e hz
  induction n generalizing pc σ with
  | zero => rfl
  | succ n ih =>
    simp only [run, hstep]
    split <;> simp_all

/-! ## C05 -/

theorem toS64_split (x : BitVec 64) : toS64 (x.setWidth 32) ((x >>> 32).setWidth 32) = x := by
  apply BitVec.eq_of_getLsbD_eq
  intro i hi
  have hm : (0xFFFFFFFF : BitVec 64) = (BitVec.allOnes 32).setWidth 64 := by decide
  simp only [toS64, hm, BitVec.getLsbD_or, BitVec.getLsbD_and, BitVec.getLsbD_shiftLeft, BitVec.getLsbD_signExtend,
    BitVec.getLsbD_setWidth, BitVec.getLsbD_ushiftRight, BitVec.getLsbD_allOnes]
  by_cases h : i < 32
  · simp [h, hi]
  · have h1 : i - 32 < 32 := by omega
    have h2 : 32 + (i - 32) = i := by omega
    have h3 : i - 32 < 64 := by omega
    simp [h, hi, h1, h2, h3]

open Verif.Norm Verif.Emit

/-- What an emitted instruction says: opcode, registers, offset, whether it is wide, and its immediate
(64 bits for a wide one). -/
def preView (p : Pre) : BitVec 8 × BitVec 4 × BitVec 4 × BitVec 16 × Bool × BitVec 64 :=
  (p.opcode, BitVec.ofNat 4 p.dst, BitVec.ofNat 4 p.src, p.off, p.it == .imm64,
    match p.it with
    | .imm => p.imm.setWidth 64
    | .imm64 => p.imm64)

/-- The same for an instruction read back. -/
def readView (q : PreInsn) : BitVec 8 × BitVec 4 × BitVec 4 × BitVec 16 × Bool × BitVec 64 :=
  (q.slot.code, q.slot.dst, q.slot.src, q.slot.off, q.wide, if q.wide then q.imm64 else q.slot.imm.setWidth 64)

theorem get_second (A R : List Slot) (a b : Slot) : (A ++ a :: b :: R)[A.length + 1]! = b := by
  rw [List.getElem!_eq_getElem?_getD, List.getElem?_append_right (by omega)]
  simp

/-- C05, reading back: wherever the slots emitted for a list of machine instructions stand in a
program, reading them as the contents of a block gives the same instructions, 64-bit immediates
included. -/
theorem C05_readback (ps : List Pre) (h0 : ∀ p ∈ ps, p.opcode ≠ 0) : ∀ (A B : List Slot) (k : Nat), total ps ≤ k →
    (readInsns (A ++ slotsOf ps ++ B) (A.length + total ps) k A.length).map readView = ps.map preView := by
  induction ps with
  | nil =>
    intro A B k hk
    cases k with
    | zero => rfl
    | succ k => simp [readInsns]
  | cons p ps ih =>
    intro A B k hk
    have ih := ih (fun q hq => h0 q (by simp [hq]))
    have hw : ∀ q : Pre, 1 ≤ width q := by intro q; cases h : q.it <;> simp [width, Pre.slots, h]
    have hnext : ∀ q qs, ps = q :: qs → (slotsOf ps)[0]? = some (q.slots[0]!) ∧ (q.slots[0]!).code = q.opcode := by
      intro q qs h; subst h
      cases h : q.it <;> simp [slotsOf, Pre.slots, h]
    obtain ⟨k, rfl⟩ : ∃ k', k = k' + 1 := ⟨k - 1, by have := hw p; simp only [total_cons] at hk; omega⟩
    cases hit : p.it with
    | imm =>
      have hsl : p.slots = [⟨p.opcode, BitVec.ofNat 4 p.dst, BitVec.ofNat 4 p.src, p.off, p.imm⟩] := by
        simp [Pre.slots, hit]
      have hwd : width p = 1 := by simp [width, hit]
      have e : A ++ slotsOf (p :: ps) ++ B = (A ++ p.slots) ++ slotsOf ps ++ B := by simp [slotsOf]
      have ih := ih (A ++ p.slots) B k (by simp only [total_cons, hwd] at hk; omega)
      have hlen : (A ++ p.slots).length = A.length + 1 := by simp [hsl]
      rw [hlen] at ih
      have hget : (A ++ slotsOf (p :: ps) ++ B)[A.length]! =
          ⟨p.opcode, BitVec.ofNat 4 p.dst, BitVec.ofNat 4 p.src, p.off, p.imm⟩ := by
        simp [slotsOf, hsl]
      have hnw : (decide (A.length + 1 < A.length + total (p :: ps)) &&
          ((A ++ slotsOf (p :: ps) ++ B)[A.length + 1]!).code == 0) = false := by
        cases hps : ps with
        | nil => simp [hwd]
        | cons q qs =>
          have : (A ++ slotsOf (p :: q :: qs) ++ B)[A.length + 1]! = q.slots[0]! := by
            obtain ⟨s0, st, hq⟩ : ∃ s0 st, q.slots = s0 :: st := by cases hq : q.it <;> simp [Pre.slots, hq]
            simp only [slotsOf, List.flatMap_cons, List.append_assoc, hsl, hq, List.cons_append, List.nil_append,
              get_second]
            rfl
          rw [this, (hnext q qs hps).2]
          have := h0 q (by simp [hps])
          rw [Bool.and_eq_false_iff]; right
          simpa using this
      have hlt : A.length < A.length + total (p :: ps) := by simp only [total_cons, hwd]; omega
      simp only [readInsns]
      rw [if_pos hlt, hnw, hget]
      simp only [Bool.false_eq_true, if_false, List.map_cons]
      rw [e, show A.length + total (p :: ps) = A.length + 1 + total ps by simp only [total_cons, hwd]; omega, ih]
      simp [readView, preView, hit]
    | imm64 =>
      have hsl : p.slots = [⟨p.opcode, BitVec.ofNat 4 p.dst, BitVec.ofNat 4 p.src, p.off, p.imm64.setWidth 32⟩,
               ⟨0, 0, 0, 0, (p.imm64 >>> 32).setWidth 32⟩] := by simp [Pre.slots, hit]
      have hwd : width p = 2 := by simp [width, hit]
      have e : A ++ slotsOf (p :: ps) ++ B = (A ++ p.slots) ++ slotsOf ps ++ B := by simp [slotsOf]
      have ih := ih (A ++ p.slots) B k (by simp only [total_cons, hwd] at hk; omega)
      have hlen : (A ++ p.slots).length = A.length + 2 := by simp [hsl]
      rw [hlen] at ih
      have hget : (A ++ slotsOf (p :: ps) ++ B)[A.length]! =
          ⟨p.opcode, BitVec.ofNat 4 p.dst, BitVec.ofNat 4 p.src, p.off, p.imm64.setWidth 32⟩ := by
        simp [slotsOf, hsl]
      have hget2 : (A ++ slotsOf (p :: ps) ++ B)[A.length + 1]! = ⟨0, 0, 0, 0, (p.imm64 >>> 32).setWidth 32⟩ := by
        simp [slotsOf, hsl]
      have hlt : A.length < A.length + total (p :: ps) := by simp only [total_cons, hwd]; omega
      have hlt2 : A.length + 1 < A.length + total (p :: ps) := by simp only [total_cons, hwd]; omega
      simp only [readInsns]
      rw [if_pos hlt, hget, hget2]
      simp only [hlt2, decide_true, beq_self_eq_true, Bool.and_self, if_true, List.map_cons]
      rw [e, show A.length + total (p :: ps) = A.length + 2 + total ps by simp only [total_cons, hwd]; omega, ih]
      simp only [readView, preView, hit, toS64_split]
      simp

/-! ## Concrete cases -/

/-- `r0 = 0; if r1 == 0 goto +3; r2 = 5 ll; goto +1; (dead) r0 = 1; exit` -/
def exP : List Slot :=
  [⟨0xb7, 0, 0, 0, 0⟩, ⟨0x15, 1, 0, 4, 0⟩, ⟨0x18, 2, 0, 0, 5⟩, ⟨0, 0, 0, 0, 0⟩, ⟨0x05, 0, 0, 1, 0⟩, ⟨0xb7, 0, 0, 0, 1⟩,
   ⟨0x95, 0, 0, 0, 0⟩]

/-- The hypotheses of C15 and C16, as a computable test. -/
def legalB (lo : Int) (P : List Slot) : Bool :=
  P.all (fun s => s.code == 0 || (decode s).isSome) &&
  (P.zipIdx).all (fun x => match decode x.1 with
    | some (.ldimm _ _) => (match P[x.2 + 1]? with | some s2 => s2.code == 0 | none => false)
    | some i => (match jumpOffset i with
      | some off => decide (lo ≤ (x.2 : Int) + 1 + off.toInt) && decide ((x.2 : Int) + 1 + off.toInt ≤ P.length)
      | none => true)
    | none => true)

theorem legalB_sound {lo : Int} (hlo : 0 ≤ lo) {P : List Slot} (h : legalB lo P = true) :
    Legal P ∧ (0 < lo → NoJumpToStart P) := by
  simp only [legalB, Bool.and_eq_true, List.all_eq_true] at h
  obtain ⟨h1, h2⟩ := h
  have hz : ∀ (p : Nat) (s : Slot), P[p]? = some s → (s, p) ∈ P.zipIdx := by
    intro p s hs
    rw [List.mem_iff_getElem?]
    exact ⟨p, by rw [List.getElem?_zipIdx, hs]; simp⟩
  have hj : ∀ (p : Nat) (s : Slot) (i : Instr) (off : BitVec 16), P[p]? = some s → decode s = some i →
      jumpOffset i = some off → lo ≤ (p : Int) + 1 + off.toInt ∧ (p : Int) + 1 + off.toInt ≤ P.length := by
    intro p s i off hs hd ho
    have := h2 _ (hz p s hs)
    simp only [hd] at this
    cases i with
    | ldimm d k => simp [jumpOffset] at ho
    | ja o => simpa [ho] using this
    | jcc w c d src o => simpa [ho] using this
    | _ => simp [jumpOffset] at ho
  refine ⟨⟨?_, ?_, ?_⟩, ?_⟩
  · intro s hs; simpa using h1 s hs
  · intro p s d k hs hd
    have := h2 _ (hz p s hs)
    simp only [hd] at this
    cases h3 : P[p + 1]? with
    | none => simp [h3] at this
    | some s2 => rw [h3] at this; exact ⟨s2, rfl, by simpa using this⟩
  · intro p s i off hs hd ho
    have := hj p s i off hs hd ho; omega
  · intro h0 p s i off hs hd ho
    have := hj p s i off hs hd ho; omega

/-- The program meets the hypotheses of C15, C16 and C49; its blocks (the dead slot 5 starts none). -/
example : Legal exP ∧ NoJumpToStart exP ∧ exP.length ≤ 32768 :=
  have h := legalB_sound (lo := 1) (by decide) (P := exP) (by decide +kernel)
  ⟨h.1, h.2 (by decide), by decide⟩

/-- Start, end, predecessors and successors of the blocks. -/
def shape (r : Out (List Blk)) : List (Nat × Nat × List Nat × List Nat) :=
  match r with
  | .ok bs => bs.map (fun (b : Blk) => (b.start, b.stop, b.preds, b.succs))
  | _ => []

example : shape (genBB exP) = [(0, 2, [], [1, 2]), (2, 5, [0], [2]), (6, 7, [0, 1], [])] := by decide +kernel

/-- C05 on a wide load between other instructions. -/
example : ([{ opcode := 0xb7, imm := 1 }, { opcode := 0x18, dst := 3, src := 1, it := .imm64, imm64 := 0xfffffffe80000001 }] :
    List Pre).all (fun p => p.opcode != 0) = true := by decide

/-! ## Where the code breaks C15 and C16 -/

/-- `r0 = 7; if r1 == 0 goto -2; exit`: a loop back to the first instruction. -/
def loopP : List Slot := [⟨0xb7, 0, 0, 0, 7⟩, ⟨0x15, 1, 0, 65534, 0⟩, ⟨0x95, 0, 0, 0, 0⟩]

/-- C15/C16 do not hold for a jump back to slot 0: the entry block (the first one) is empty and has no
successors, so the program behind it is lost.  The two blocks starting at 0 compare equal in `qsort`; in
either order the first one is empty. -/
theorem C15_violated_jump_to_start : Legal loopP ∧ ∃ b bs, genBB loopP = .ok (b :: bs) ∧
    b.start = b.stop ∧ b.insns = [] ∧ b.succs = [] := by
  refine ⟨(legalB_sound (lo := 0) (by decide) (by decide +kernel)).1, ?_⟩
  have h : (match genBB loopP with
      | .ok (b :: _) => b.start == b.stop && b.insns == [] && b.succs == []
      | _ => false) = true := by decide +kernel
  match hg : genBB loopP with
  | .ok (b :: bs) =>
    simp only [hg, Bool.and_eq_true, beq_iff_eq] at h
    exact ⟨b, bs, rfl, h.1.1, h.1.2, h.2⟩
  | .ok [] => simp [hg] at h
  | .err => simp [hg] at h
  | .crit => simp [hg] at h
  | .ub => simp [hg] at h

theorem scan_plain (P : List Slot) (s : Slot) (h1 : isJa s.code = false) (h2 : isCond s.code = false) (h3 : isExit s.code = false)
    (rest : List Slot) : ∀ n i es, scan P es i (List.replicate n s ++ rest) = scan P es (i + n) rest := by
  intro n
  induction n with
  | zero => intro i es; rfl
  | succ n ih =>
    intro i es
    simp only [List.replicate_succ, List.cons_append, scan, scanInsn, h1, h2, h3]
    simp only [Bool.false_eq_true, if_false, Out.ok_bind]
    rw [ih, show i + 1 + n = i + (n + 1) by omega]

/-- `r0 = 0` n times, `goto +0`, `exit` -/
def longP (n : Nat) : List Slot := List.replicate n ⟨0xb7, 0, 0, 0, 0⟩ ++ [⟨0x05, 0, 0, 0, 0⟩, ⟨0x95, 0, 0, 0, 0⟩]

/-- C15 does not hold for long programs: the position is cut to 16 bits, and the jump at slot
n ≥ 32768 is taken to go to a negative position, far outside the array. -/
theorem C15_violated_long (n : Nat) (h : 32768 ≤ n) (h' : n < 65535) : genBB (longP n) = .ub := by
  have hm : (longP n).map zeroJump = longP n := by
    simp only [longP, List.map_append, List.map_replicate]
    congr 1
  have ht : target n 0 < 0 := by
    have : (BitVec.ofNat 16 n).toInt = (n : Int) - 65536 := by
      rw [BitVec.toInt_eq_toNat_cond, BitVec.toNat_ofNat]
      split <;> omega
    simp only [target, this]
    simp; omega
  simp only [genBB, hm]
  have : scan (longP n) [] 0 (longP n) = .ub := by
    have := scan_plain (longP n) ⟨0xb7, 0, 0, 0, 0⟩ (by decide) (by decide) (by decide) [⟨0x05, 0, 0, 0, 0⟩, ⟨0x95, 0, 0, 0, 0⟩] n 0 []
    rw [show List.replicate n _ ++ _ = longP n from rfl] at this
    rw [this, Nat.zero_add]
    have e : scanInsn (longP n) [] n ⟨0x05, 0, 0, 0, 0⟩ = addEnt (longP n) [] (target n 0) n := rfl
    simp only [scan, e]
    have : addEnt (longP n) [] (target n 0) n = .ub := by
      cases htt : target n 0 with
      | ofNat k => rw [htt] at ht; simp at ht; omega
      | negSucc k => rfl
    rw [this]; rfl
  rw [this]; rfl

end Verif.GenBB
