import Verif.GenBB.Lemmas
import Verif.Spec.Cfg
/-! # Opcode tests of the block builder against the decoder -/
set_option linter.unusedSimpArgs false
namespace Verif.GenBB
open Verif Verif.Bpf

theorem decode_zero {s : Slot} (h : s.code = 0) : decode s = none := by
  simp [decode, h]

theorem cls_cases (c : BitVec 8) : cls c = 0 ∨ cls c = 1 ∨ cls c = 2 ∨ cls c = 3 ∨ cls c = 4 ∨ cls c = 5 ∨ cls c = 6 ∨ cls c = 7 := by
  simp only [cls]; omega

theorem condOp_some {n : Nat} {c : Cond} (h : condOp n = some c) : (1 ≤ n ∧ n ≤ 7) ∨ (0xa ≤ n ∧ n ≤ 0xd) := by
  simp only [condOp] at h
  split at h <;> simp at h <;> omega

theorem condOp_isSome {n : Nat} (h : (1 ≤ n ∧ n ≤ 7) ∨ (0xa ≤ n ∧ n ≤ 0xd)) : ∃ c, condOp n = some c := by
  have : n = 1 ∨ n = 2 ∨ n = 3 ∨ n = 4 ∨ n = 5 ∨ n = 6 ∨ n = 7 ∨ n = 10 ∨ n = 11 ∨ n = 12 ∨ n = 13 := by omega
  rcases this with rfl | rfl | rfl | rfl | rfl | rfl | rfl | rfl | rfl | rfl | rfl <;> exact ⟨_, rfl⟩

theorem isCond_of {c : BitVec 8} (hj : cls c = 5 ∨ cls c = 6)
    (h : (1 ≤ c.toNat / 16 ∧ c.toNat / 16 ≤ 7) ∨ (0xa ≤ c.toNat / 16 ∧ c.toNat / 16 ≤ 0xd)) : isCond c = true := by
  have h' : (1 ≤ opc c ∧ opc c ≤ 7) ∨ (0xa ≤ opc c ∧ opc c ≤ 0xd) := h
  simp only [isCond, isJmp]
  generalize opc c = n at h'
  rcases hj with hj | hj <;> rcases h' with ⟨h1, h2⟩ | ⟨h1, h2⟩ <;> simp [hj, h1, h2]

/-- What the decoded instruction says about the opcode tests. -/
theorem decode_class {s : Slot} {i : Instr} (h : decode s = some i) :
    (isJa s.code = true ↔ i = .ja s.off) ∧ (isCond s.code = true ↔ ∃ w c d src, i = .jcc w c d src s.off) ∧
    (isExit s.code = true ↔ i = .exit) ∧ (isJa s.code = true → cls s.code = 5) ∧
    (∀ off, jumpOffset i = some off → off = s.off) := by
  have h' := h
  simp only [decode] at h
  rcases cls_cases s.code with hc | hc | hc | hc | hc | hc | hc | hc
  all_goals
    have hc' : s.code.toNat % 8 = _ := hc
    simp only [hc'] at h
    simp only [isJa, isCond, isExit, isJmp, hc, opc]
  · split at h <;> simp at h
    subst h; simp [jumpOffset]
  · split at h
    · simp at h; subst h; simp [jumpOffset]
    · split at h <;> simp at h
      subst h; simp [jumpOffset]
  · split at h <;> simp at h
    subst h; simp [jumpOffset]
  · split at h <;> simp at h
    subst h; simp [jumpOffset]
  · split at h
    · simp at h
    split at h
    · split at h <;> simp at h
      subst h; simp [jumpOffset]
    · split at h
      · simp at h; subst h; simp [jumpOffset]
      · simp at h
        obtain ⟨o, _, rfl⟩ := h
        simp [jumpOffset]
  · by_cases h0 : s.code.toNat / 16 = 0
    · simp only [h0, if_true] at h
      split at h <;> simp at h
      subst h; simp [h0, jumpOffset]
    · by_cases h8 : s.code.toNat / 16 = 8
      · simp [h8] at h
        obtain ⟨_, rfl⟩ := h; simp [h8, jumpOffset]
      · by_cases h9 : s.code.toNat / 16 = 9
        · simp [h9] at h
          obtain ⟨_, rfl⟩ := h; simp [h9, jumpOffset]
        · simp [h0, h8, h9] at h
          obtain ⟨c, h1, rfl⟩ := h
          have := condOp_some h1
          refine ⟨by simp [h0], ⟨fun _ => ⟨_, _, _, _, rfl⟩, fun _ => ?_⟩, by simp [h9], by simp, by simp [jumpOffset]⟩
          have := isCond_of (Or.inl hc) this
          simpa only [isCond, isJmp, hc, opc] using this
  · simp at h
    obtain ⟨c, h1, rfl⟩ := h
    have := condOp_some h1
    have hcond := isCond_of (Or.inr hc) this
    refine ⟨?_, ⟨fun _ => ⟨_, _, _, _, rfl⟩, fun _ => ?_⟩, ?_, ?_, by simp [jumpOffset]⟩
    · simp; omega
    · simpa only [isCond, isJmp, hc, opc] using hcond
    · simp; omega
    · simp; omega
  · split at h
    · simp at h
    split at h
    · split at h <;> simp at h
      subst h; simp [jumpOffset]
    · simp at h
      obtain ⟨o, _, rfl⟩ := h
      simp [jumpOffset]

/-- A decoded instruction that is not a breakpoint is neither jump nor exit, and conversely. -/
theorem decode_break {s : Slot} {i : Instr} (h : decode s = some i) :
    isBreak s.code = (isJa s.code || isCond s.code || isExit s.code) := by
  have hop : isJmp s.code = true → opc s.code ≤ 0xd := by
    intro hj
    simp [isJmp] at hj
    simp only [decode] at h
    rcases hj with hc | hc
    · have hc' : s.code.toNat % 8 = _ := hc
      simp only [hc'] at h
      simp only [opc]
      split at h
      · omega
      · split at h
        · omega
        · split at h
          · omega
          · simp at h
            obtain ⟨c, h1, _⟩ := h
            have := condOp_some h1; omega
    · have hc' : s.code.toNat % 8 = _ := hc
      simp only [hc'] at h
      simp only [opc]
      simp at h
      obtain ⟨c, h1, _⟩ := h
      have := condOp_some h1; omega
  simp only [isBreak, isJa, isCond, isExit]
  cases hj : isJmp s.code with
  | false => simp
  | true =>
    have := hop hj
    simp only [Bool.true_and]
    rw [Bool.eq_iff_iff]
    simp
    omega

theorem zeroJump_code {s : Slot} : isEnd (zeroJump s).code = isEnd s.code := by
  simp only [zeroJump]
  split
  · rename_i h
    simp at h
    simp [isEnd, h.1]
    decide
  · rfl

end Verif.GenBB
