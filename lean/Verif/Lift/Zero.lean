import Verif.Lift.Machine
/-!
# Replacing jumps to the next instruction keeps the shape of a program
-/
namespace Verif.Lift
open Verif Verif.Bpf Verif.IR Verif.GenBB
set_option linter.unusedSimpArgs false
set_option linter.unusedVariables false

theorem zeroJump_idem (s : Slot) : zeroJump (zeroJump s) = zeroJump s := by
  unfold zeroJump
  split
  · decide +kernel
  · rfl

theorem map_idem (P : List Slot) : (P.map zeroJump).map zeroJump = P.map zeroJump := by
  simp [zeroJump_idem]

theorem genBB_idem (P : List Slot) : genBB (P.map zeroJump) = genBB P := by
  simp only [genBB, map_idem]

/-- A slot that changes was a conditional jump with offset 0. -/
theorem zeroJump_cases (s : Slot) : zeroJump s = s ∨ (isCond s.code = true ∧ s.off = 0 ∧ zeroJump s = ⟨5, 0, 0, 0, 0⟩) := by
  unfold zeroJump
  split
  · rename_i h; right; simp at h; exact ⟨h.1, h.2, rfl⟩
  · exact .inl rfl

theorem decode_ja0 : decode ⟨5, 0, 0, 0, 0⟩ = some (.ja 0) := by decide +kernel

theorem get_zero {P : List Slot} {p : Nat} {s : Slot} (h : P[p]? = some s) : (P.map zeroJump)[p]? = some (zeroJump s) := by simp [h]

theorem zeroJump_code0 {s : Slot} : (zeroJump s).code = 0 ↔ s.code = 0 := by
  rcases zeroJump_cases s with h | ⟨h1, h2, h3⟩
  · rw [h]
  · rw [h3]
    constructor
    · intro h; exact absurd h (by decide)
    · intro h; rw [h] at h1; exact absurd h1 (by decide)

/-- Decoding a rewritten slot of a legal program. -/
theorem decode_zeroJump {P : List Slot} (hl : Legal P) {p : Nat} {s : Slot} (h : P[p]? = some s) :
    decode (zeroJump s) = decode s ∨ (decode (zeroJump s) = some (.ja 0) ∧ ∃ w c d src, decode s = some (.jcc w c d src 0)) := by
  rcases zeroJump_cases s with h1 | ⟨h1, h2, h3⟩
  · rw [h1]; exact .inl rfl
  · right
    rw [h3]
    refine ⟨decode_ja0, ?_⟩
    rcases slot_cases hl h with ⟨_, _, a2, _⟩ | ⟨a1, w, c, d, src, a2⟩ | ⟨_, _, a2, _⟩ | ⟨_, _, a2, _⟩
    · rw [h1] at a2; simp at a2
    · rw [h2] at a2; exact ⟨w, c, d, src, a2⟩
    · rw [h1] at a2; simp at a2
    · rw [h1] at a2; simp at a2

theorem flow_zero {P : List Slot} (hl : Legal P) (p : Nat) (x : Int) : x ∈ flow (P.map zeroJump) p ↔ x ∈ flow P p := by
  cases h : P[p]? with
  | none => simp [flow, h]
  | some s =>
    rw [flow_get h, flow_get (get_zero h)]
    rcases decode_zeroJump hl h with e | ⟨e, w, c, d, src, e'⟩
    · rw [e]
    · rw [e, e', flowI_ja, flowI_jcc]
      have : (0 : BitVec 16).toInt = 0 := rfl
      simp [this]

/-- A jump of the rewritten program is a jump of the program, with the same offset. -/
theorem jump_zero {P : List Slot} (hl : Legal P) {p : Nat} {s : Slot} {i : Instr} {off : BitVec 16}
    (h : (P.map zeroJump)[p]? = some s) (hd : decode s = some i) (hj : jumpOffset i = some off) :
    ∃ s' i', P[p]? = some s' ∧ decode s' = some i' ∧ jumpOffset i' = some off := by
  obtain ⟨s', h1, rfl⟩ := get_map h
  rcases decode_zeroJump hl h1 with e | ⟨e, w, c, d, src, e'⟩
  · exact ⟨s', i, h1, by rw [← e]; exact hd, hj⟩
  · rw [e] at hd; cases hd
    cases hj
    exact ⟨s', _, h1, e', rfl⟩

theorem wellShaped_zero {P : List Slot} (hw : WellShaped P) : WellShaped (P.map zeroJump) := by
  have hl := hw.legal
  refine ⟨⟨?_, ?_, ?_⟩, ?_, ?_, ?_, ?_, ?_⟩
  · intro s hs
    obtain ⟨p, hp⟩ := List.getElem?_of_mem hs
    obtain ⟨s', h1, rfl⟩ := get_map hp
    rcases hl.enc s' (List.mem_of_getElem? h1) with h | h
    · exact .inl (zeroJump_code0.2 h)
    · right
      rcases decode_zeroJump hl h1 with e | ⟨e, _⟩
      · rw [e]; exact h
      · rw [e]; rfl
  · intro p s d k h hd
    obtain ⟨s', h1, rfl⟩ := get_map h
    rcases decode_zeroJump hl h1 with e | ⟨e, _⟩
    · rw [e] at hd
      obtain ⟨s2, h2, h3⟩ := hl.wide p s' d k h1 hd
      exact ⟨_, get_zero h2, zeroJump_code0.2 h3⟩
    · rw [e] at hd; cases hd
  · intro p s i off h hd hj
    obtain ⟨s', i', h1, h2, h3⟩ := jump_zero hl h hd hj
    have := hl.jumps p s' i' off h1 h2 h3
    simpa using this
  · intro s h h0
    obtain ⟨s', h1, rfl⟩ := get_map h
    exact hw.first s' h1 (zeroJump_code0.1 h0)
  · intro p s h h0
    obtain ⟨s', h1, rfl⟩ := get_map h
    obtain ⟨s2, d, k, h2, h3⟩ := hw.half p s' h1 (zeroJump_code0.1 h0)
    refine ⟨_, d, k, get_zero h2, ?_⟩
    rcases decode_zeroJump hl h2 with e | ⟨e, w, c, dd, src, e'⟩
    · rw [e]; exact h3
    · rw [e'] at h3; cases h3
  · intro p s i off h hd hj t s2 ht h2 h0
    obtain ⟨s', i', h1, h3, h4⟩ := jump_zero hl h hd hj
    obtain ⟨s2', h5, rfl⟩ := get_map h2
    exact hw.into p s' i' off h1 h3 h4 t s2' ht h5 (zeroJump_code0.1 h0)
  · intro p s i off h hd hj
    obtain ⟨s', i', h1, h3, h4⟩ := jump_zero hl h hd hj
    exact hw.start p s' i' off h1 h3 h4
  · intro p hp
    have hp' : p < P.length := by simpa using hp
    have := hw.live p hp'
    clear hp hp'
    induction this with
    | first h => exact .first (by simpa using h)
    | next _ hf hq ih => exact .next ih ((flow_zero hl _ _).2 hf) (by simpa using hq)

theorem clean_zero {P : List Slot} (hl : Legal P) (hcl : ∀ s ∈ P, ∀ i, decode s = some i → Clean i) :
    ∀ s ∈ P.map zeroJump, ∀ i, decode s = some i → Clean i := by
  intro s hs i hd
  obtain ⟨p, hp⟩ := List.getElem?_of_mem hs
  obtain ⟨s', h1, rfl⟩ := get_map hp
  rcases decode_zeroJump hl h1 with e | ⟨e, _⟩
  · rw [e] at hd; exact hcl s' (List.mem_of_getElem? h1) i hd
  · rw [e] at hd; cases hd; trivial

end Verif.Lift
