import Verif.Tool.DisasmLemmas
/-!
# C71: listings
-/
namespace Verif.Tool
open Verif Verif.Bpf Verif.Opts
open Verif.Listing (asm shown nat hexa signed offset register assign compare width memory helper loaded Listable)

/-! ## The text of an instruction -/

theorem nat_eq {n : Nat} (h : n < 10 ^ 20) : nat n = dec n := (dec_spec h).2.2.2

theorem hexa_eq {n : Nat} (h : n < 2 ^ 64) : hexa n = hex n := (hex_spec h).2.2.2

theorem register_eq (w : Bool) (r : BitVec 4) : register w r = wr (!w) r := by
  have := r.isLt
  unfold register wr
  rw [nat_eq (by omega)]
  cases w <;> rfl

theorem register_true (r : BitVec 4) : register true r = reg r := by rw [register_eq]; rfl

theorem signed_eq (k : BitVec 32) : signed k.toInt = int k.toInt := by
  have := BitVec.toInt_lt (x := k)
  have := BitVec.le_toInt (x := k)
  unfold signed int
  rw [nat_eq (by omega)]
  split <;> rfl

theorem offset_eq {i : Int} (h : i.natAbs < 10 ^ 20) : offset i = intP i := by
  unfold offset intP
  rw [nat_eq h]
  split <;> rfl

theorem offset16 (k : BitVec 16) : offset k.toInt = intP k.toInt := by
  have := BitVec.toInt_lt (x := k)
  have := BitVec.le_toInt (x := k)
  exact offset_eq (by omega)

theorem offset32 (k : BitVec 32) : offset k.toInt = intP k.toInt := by
  have := BitVec.toInt_lt (x := k)
  have := BitVec.le_toInt (x := k)
  exact offset_eq (by omega)

theorem memory_eq (sx : Bool) (z : Size) (r : BitVec 4) (off : BitVec 16) : memory sx z r off = str "*(" ++ (((if sx then 's' else 'u') :: width z) ++ (str " *)" ++ place r off)) := by
  unfold memory place
  rw [register_true, offset16]
  simp [str]

theorem ldst_eq {n : Nat} (h : n < 4) : ldstString n = .ok ('u' :: width (sizeOf n)) := by
  have : n = 0 ∨ n = 1 ∨ n = 2 ∨ n = 3 := by omega
  rcases this with rfl | rfl | rfl | rfl <;> rfl

theorem ldsx_eq {n : Nat} (h : n < 3) : ldsxString n = .ok ('s' :: width (sizeOf n)) := by
  have : n = 0 ∨ n = 1 ∨ n = 2 := by omega
  rcases this with rfl | rfl | rfl <;> rfl

theorem aluString_eq {n : Nat} {o : AluOp} (h : aluOp n = some o) : aluString n = .ok (assign o) := by
  unfold aluOp at h
  split at h <;> first | (cases h; rfl) | cases h

theorem jmpString_eq {n : Nat} {o : Cond} (h : condOp n = some o) : jmpString n = .ok (compare o) := by
  unfold condOp at h
  split at h <;> first | (cases h; rfl) | cases h

theorem shown_eq (code : BitVec 8) (v : BitVec 64) (i : Instr) : shown code v i = headOf code ++ (asm v i ++ str "\n") := by
  have := code.isLt
  unfold shown headOf hex2
  rw [hexa_eq (by omega)]
  split <;> simp [str]

theorem hex_wide (v : BitVec 64) : hexa v.toNat = hex v.toNat := hexa_eq v.isLt

/-! The equations of `asm`. -/

theorem asm_alur (v : BitVec 64) (w64 o d r) : asm v (.alu w64 o d (.reg r)) = register w64 d ++ " ".toList ++ assign o ++ " ".toList ++ register w64 r := rfl
theorem asm_alui (v : BitVec 64) (w64 o d k) : asm v (.alu w64 o d (.imm k)) = register w64 d ++ " ".toList ++ assign o ++ " ".toList ++ signed k.toInt := rfl
theorem asm_neg (v : BitVec 64) (w64 d) : asm v (.neg w64 d) = register w64 d ++ " = -".toList ++ register w64 d := rfl
theorem asm_swap (v : BitVec 64) (be d k) : asm v (.swap be d k) = register true d ++ " = ".toList ++ (if be then "be".toList else "le".toList) ++ signed k.toInt ++ " ".toList ++ register true d := rfl
theorem asm_ldimm (v : BitVec 64) (d k) : asm v (.ldimm d k) = register true d ++ " = 0x".toList ++ hexa v.toNat ++ " (imm64 ld)".toList := rfl
theorem asm_ldx (v : BitVec 64) (sx z d r off) : asm v (.ldx sx z d r off) = register true d ++ " = ".toList ++ memory sx z r off := rfl
theorem asm_st (v : BitVec 64) (z d off k) : asm v (.st z d off k) = memory false z d off ++ " = ".toList ++ signed k.toInt := rfl
theorem asm_stx (v : BitVec 64) (z d r off) : asm v (.stx z d r off) = memory false z d off ++ " = ".toList ++ register true r := rfl
theorem asm_ja (v : BitVec 64) (off) : asm v (.ja off) = "goto pc".toList ++ offset off.toInt := rfl
theorem asm_jccr (v : BitVec 64) (w64 c d r off) : asm v (.jcc w64 c d (.reg r) off) = "if ".toList ++ register w64 d ++ " ".toList ++ compare c ++ " ".toList ++ register w64 r ++ " goto pc".toList ++ offset off.toInt := rfl
theorem asm_jcci (v : BitVec 64) (w64 c d k off) : asm v (.jcc w64 c d (.imm k) off) = "if ".toList ++ register w64 d ++ " ".toList ++ compare c ++ " 0x".toList ++ hexa k.toNat ++ " goto pc".toList ++ offset off.toInt := rfl
theorem asm_call (v : BitVec 64) (k) : asm v (.call k) = "call ".toList ++ helper k := rfl
theorem asm_exit (v : BitVec 64) : asm v .exit = "exit".toList := rfl

variable {s : Slot} {i : Instr}

theorem ld_shown {next : Option Slot} (e : s.code.toNat % 8 = 0) (hd : decode s = some i) (h1 : ∀ d k, i = .ldimm d k → next ≠ none) : lineLd s next = .ok (headOf s.code ++ (asm (loaded s next) i ++ str "\n")) := by
  unfold decode at hd
  simp only [e] at hd
  split at hd
  · rename_i hc
    cases hd
    cases next with
    | none => exact False.elim (h1 s.dst s.src rfl rfl)
    | some t =>
      unfold lineLd
      dsimp only
      rw [asm_ldimm]
      rw [if_neg (by omega), if_neg (by omega), if_pos (by omega), register_true, hex_wide]
      generalize hv : hex (loaded s (some t)).toNat = v
      rw [show hex (t.imm ++ s.imm).toNat = v from hv]
      simp [str]
  · cases hd

theorem ldx_shown (v : BitVec 64) (e : s.code.toNat % 8 = 1) (hd : decode s = some i) (h2 : ∀ d r off, i ≠ .ldx true .dw d r off) : lineLdx s = .ok (headOf s.code ++ (asm v i ++ str "\n")) := by
  have hz : s.code.toNat / 8 % 4 < 4 := by omega
  unfold decode at hd
  simp only [e] at hd
  have hm : ∃ sx, (s.code.toNat / 32 = if sx then 4 else 3) ∧ i = .ldx sx (sizeOf (s.code.toNat / 8 % 4)) s.dst s.src s.off := by
    split at hd
    · rename_i hm; cases hd; exact ⟨false, hm, rfl⟩
    · split at hd
      · rename_i hm; cases hd; exact ⟨true, hm, rfl⟩
      · cases hd
  obtain ⟨sx, hm, rfl⟩ := hm
  unfold lineLdx
  simp only [asm_ldx, memory_eq, register_true]
  cases sx with
  | false =>
    simp only [Bool.false_eq_true, if_false] at hm
    simp [hm, ldst_eq hz, str]
  | true =>
    simp only [if_true] at hm
    have : s.code.toNat / 8 % 4 ≠ 3 := fun k => h2 s.dst s.src s.off (by rw [k]; rfl)
    simp [hm, ldsx_eq (n := s.code.toNat / 8 % 4) (by omega), str]

theorem st_shown (v : BitVec 64) (e : s.code.toNat % 8 = 2) (hd : decode s = some i) : lineSt s = .ok (headOf s.code ++ (asm v i ++ str "\n")) := by
  have hz : s.code.toNat / 8 % 4 < 4 := by omega
  unfold decode at hd
  simp only [e] at hd
  split at hd
  · rename_i hm
    cases hd
    unfold lineSt
    simp only [asm_st, memory_eq, signed_eq]
    simp [hm, ldst_eq hz, str]
  · cases hd

theorem stx_shown (v : BitVec 64) (e : s.code.toNat % 8 = 3) (hd : decode s = some i) : lineStx s = .ok (headOf s.code ++ (asm v i ++ str "\n")) := by
  have hz : s.code.toNat / 8 % 4 < 4 := by omega
  unfold decode at hd
  simp only [e] at hd
  split at hd
  · rename_i hm
    cases hd
    unfold lineStx
    simp only [asm_stx, memory_eq, register_true]
    simp [hm, ldst_eq hz, str]
  · cases hd

theorem alu32_shown (v : BitVec 64) (e : s.code.toNat % 8 = 4) (hd : decode s = some i) : lineAlu s = .ok (headOf s.code ++ (asm v i ++ str "\n")) := by
  unfold decode at hd
  simp only [e] at hd
  split at hd
  · cases hd
  rename_i ho
  have ho : s.off = 0 := Classical.byContradiction ho
  have hs : isSdivSmod s = false := by simp [isSdivSmod, ho]
  have hx : isMovsx s = false := by simp [isMovsx, ho]
  unfold lineAlu
  dsimp only
  split at hd
  · rename_i h8
    split at hd
    · cases hd
      simp only [asm_alur, asm_alui, asm_neg, asm_swap, register_eq]
      simp [h8, e, str]
    · cases hd
  rename_i h8
  split at hd
  · rename_i hD
    cases hd
    simp only [asm_alur, asm_alui, asm_neg, asm_swap, register_true, signed_eq]
    simp [hD, e, str]
  rename_i hD
  obtain ⟨o, ho, rfl⟩ := Option.map_eq_some_iff.1 hd
  rw [if_neg hD, if_neg h8, hs, hx]
  by_cases hX : s.code.toNat / 8 % 2 = 1
  · rw [if_pos hX]
    simp [aluString_eq ho, asm_alur, asm_alui, asm_neg, asm_swap, hX, e, register_eq, str]
  · rw [if_neg hX]
    simp [aluString_eq ho, asm_alur, asm_alui, asm_neg, asm_swap, hX, e, register_eq, signed_eq, str]

theorem alu64_shown (v : BitVec 64) (e : s.code.toNat % 8 = 7) (hd : decode s = some i) : lineAlu s = .ok (headOf s.code ++ (asm v i ++ str "\n")) := by
  unfold decode at hd
  simp only [e] at hd
  split at hd
  · cases hd
  rename_i ho
  have ho : s.off = 0 := Classical.byContradiction ho
  have hs : isSdivSmod s = false := by simp [isSdivSmod, ho]
  have hx : isMovsx s = false := by simp [isMovsx, ho]
  unfold lineAlu
  dsimp only
  split at hd
  · rename_i h8
    split at hd
    · cases hd
      simp only [asm_alur, asm_alui, asm_neg, register_eq]
      simp [h8, e, str]
    · cases hd
  rename_i h8
  obtain ⟨o, ho, rfl⟩ := Option.map_eq_some_iff.1 hd
  have hD : s.code.toNat / 16 ≠ 0xd := fun k => by rw [k] at ho; cases ho
  rw [if_neg hD, if_neg h8, hs, hx]
  by_cases hX : s.code.toNat / 8 % 2 = 1
  · rw [if_pos hX]
    simp [aluString_eq ho, asm_alur, asm_alui, asm_neg, hX, e, register_eq, str]
  · rw [if_neg hX]
    simp [aluString_eq ho, asm_alur, asm_alui, asm_neg, hX, e, register_eq, signed_eq, str]

theorem cond_shown (v : BitVec 64) {o : Cond} (h8 : s.code.toNat / 16 ≠ 8) (h5 : s.code.toNat ≠ 5) (h6 : s.code.toNat ≠ 6) (h95 : s.code.toNat ≠ 0x95) (ho : condOp (s.code.toNat / 16) = some o) {w64 : Bool}
    (hw : (s.code.toNat % 8 == 6) = !w64) :
    lineJmp s = .ok (headOf s.code ++ (asm v (.jcc w64 o s.dst (if s.code.toNat / 8 % 2 = 1 then .reg s.src else .imm s.imm) s.off) ++ str "\n")) := by
  unfold lineJmp
  dsimp only
  have := s.imm.isLt
  rw [if_neg h8, if_neg h5, if_neg h6, if_neg h95]
  by_cases hX : s.code.toNat / 8 % 2 = 1
  · rw [if_pos hX]
    simp only [if_pos hX]
    simp [jmpString_eq ho, asm_jccr, asm_jcci, hw, register_eq, offset16, str]
  · rw [if_neg hX]
    simp only [if_neg hX]
    simp [jmpString_eq ho, asm_jccr, asm_jcci, hw, register_eq, offset16, hexa_eq (show s.imm.toNat < 2 ^ 64 by omega), str]

theorem jmp_shown (v : BitVec 64) (e : s.code.toNat % 8 = 5) (hd : decode s = some i) : lineJmp s = .ok (headOf s.code ++ (asm v i ++ str "\n")) := by
  unfold decode at hd
  simp only [e] at hd
  split at hd
  · rename_i h0
    split at hd
    · rename_i hX
      cases hd
      have hc : s.code.toNat = 5 := by omega
      unfold lineJmp
      simp [hc, asm_ja, asm_call, asm_exit, offset16, str]
    · cases hd
  rename_i h0
  split at hd
  · rename_i h8
    split at hd
    · rename_i hX
      cases hd
      unfold lineJmp funcName
      simp only [h8, hX.2]
      have hs : signed s.imm.toInt = int s.imm.toInt := signed_eq _
      by_cases hk : 0 ≤ s.imm.toInt ∧ s.imm.toInt < 212
      · simp [hk, asm_ja, asm_call, asm_exit, helper, hs, offset32, str]
      · simp only [true_and, if_neg hk, asm_ja, asm_call, asm_exit, helper]
        simp [hs, str]
    · cases hd
  rename_i h8
  split at hd
  · rename_i h9
    split at hd
    · rename_i hX
      cases hd
      have hc : s.code.toNat = 0x95 := by omega
      unfold lineJmp
      simp [hc, asm_ja, asm_call, asm_exit, str]
    · cases hd
  rename_i h9
  obtain ⟨o, ho, rfl⟩ := Option.map_eq_some_iff.1 hd
  exact cond_shown v h8 (by omega) (by omega) (by omega) ho (by rw [e]; rfl)

theorem jmp32_shown (v : BitVec 64) (e : s.code.toNat % 8 = 6) (hd : decode s = some i) : lineJmp s = .ok (headOf s.code ++ (asm v i ++ str "\n")) := by
  unfold decode at hd
  simp only [e] at hd
  obtain ⟨o, ho, rfl⟩ := Option.map_eq_some_iff.1 hd
  have h8 : s.code.toNat / 16 ≠ 8 := fun k => by rw [k] at ho; cases ho
  have h0 : s.code.toNat / 16 ≠ 0 := fun k => by rw [k] at ho; cases ho
  exact cond_shown v h8 (by omega) (by omega) (by omega) ho (by rw [e]; rfl)

theorem line_shown {next : Option Slot} (hd : decode s = some i) (h1 : ∀ d k, i = .ldimm d k → next ≠ none) (h2 : ∀ d r off, i ≠ .ldx true .dw d r off) :
    line s next = .ok (shown s.code (loaded s next) i) := by
  rw [shown_eq]
  have h8 : s.code.toNat % 8 = 0 ∨ s.code.toNat % 8 = 1 ∨ s.code.toNat % 8 = 2 ∨ s.code.toNat % 8 = 3 ∨ s.code.toNat % 8 = 4 ∨ s.code.toNat % 8 = 5 ∨ s.code.toNat % 8 = 6 ∨ s.code.toNat % 8 = 7 := by omega
  unfold line
  rcases h8 with e | e | e | e | e | e | e | e <;> rw [e]
  · exact ld_shown e hd h1
  · exact ldx_shown _ e hd h2
  · exact st_shown _ e hd
  · exact stx_shown _ e hd
  · exact alu32_shown _ e hd
  · exact jmp_shown _ e hd
  · exact jmp32_shown _ e hd
  · exact alu64_shown _ e hd

/-! ## Reading a line back -/

/-- Instructions that differ in their operands only. -/
inductive Like : Instr → Instr → Prop
  | alur (w o d r d' r') : Like (.alu w o d (.reg r)) (.alu w o d' (.reg r'))
  | alui (w o d k d' k') : Like (.alu w o d (.imm k)) (.alu w o d' (.imm k'))
  | neg (w d d') : Like (.neg w d) (.neg w d')
  | swap (be d k d' k') : Like (.swap be d k) (.swap be d' k')
  | ldimm (d k d' k') : Like (.ldimm d k) (.ldimm d' k')
  | ldx (sx z d r o d' r' o') : Like (.ldx sx z d r o) (.ldx sx z d' r' o')
  | st (z d o k d' o' k') : Like (.st z d o k) (.st z d' o' k')
  | stx (z d r o d' r' o') : Like (.stx z d r o) (.stx z d' r' o')
  | ja (o o') : Like (.ja o) (.ja o')
  | jccr (w c d r o d' r' o') : Like (.jcc w c d (.reg r) o) (.jcc w c d' (.reg r') o')
  | jcci (w c d k o d' k' o') : Like (.jcc w c d (.imm k) o) (.jcc w c d' (.imm k') o')
  | call (k k') : Like (.call k) (.call k')
  | exit : Like .exit .exit

theorem decode_like {s' : Slot} {i' : Instr} (hc : s.code = s'.code) (h : decode s = some i) (h' : decode s' = some i') : Like i i' := by
  unfold decode at h h'
  rw [← hc] at h'
  dsimp only at h h'
  have h8 : s.code.toNat % 8 = 0 ∨ s.code.toNat % 8 = 1 ∨ s.code.toNat % 8 = 2 ∨ s.code.toNat % 8 = 3 ∨ s.code.toNat % 8 = 4 ∨ s.code.toNat % 8 = 5 ∨ s.code.toNat % 8 = 6 ∨ s.code.toNat % 8 = 7 := by omega
  have alu : ∀ w o, Like (.alu w o s.dst (if s.code.toNat / 8 % 2 = 1 then .reg s.src else .imm s.imm)) (.alu w o s'.dst (if s.code.toNat / 8 % 2 = 1 then .reg s'.src else .imm s'.imm)) := by
    intro w o
    split
    · exact .alur ..
    · exact .alui ..
  have jcc : ∀ w o, Like (.jcc w o s.dst (if s.code.toNat / 8 % 2 = 1 then .reg s.src else .imm s.imm) s.off) (.jcc w o s'.dst (if s.code.toNat / 8 % 2 = 1 then .reg s'.src else .imm s'.imm) s'.off) := by
    intro w o
    split
    · exact .jccr ..
    · exact .jcci ..
  rcases h8 with e | e | e | e | e | e | e | e <;> simp only [e] at h h'
  · split at h
    · rename_i q; rw [if_pos q] at h'; cases h; cases h'; exact .ldimm ..
    · cases h
  · split at h
    · rename_i q; rw [if_pos q] at h'; cases h; cases h'; exact .ldx ..
    · rename_i q
      rw [if_neg q] at h'
      split at h
      · rename_i q; rw [if_pos q] at h'; cases h; cases h'; exact .ldx ..
      · cases h
  · split at h
    · rename_i q; rw [if_pos q] at h'; cases h; cases h'; exact .st ..
    · cases h
  · split at h
    · rename_i q; rw [if_pos q] at h'; cases h; cases h'; exact .stx ..
    · cases h
  · split at h
    · cases h
    split at h'
    · cases h'
    split at h
    · rename_i q
      rw [if_pos q] at h'
      split at h
      · rename_i q; rw [if_pos q] at h'; cases h; cases h'; exact .neg ..
      · cases h
    · rename_i q
      rw [if_neg q] at h'
      split at h
      · rename_i q; rw [if_pos q] at h'; cases h; cases h'; exact .swap ..
      · rename_i q
        rw [if_neg q] at h'
        obtain ⟨o, ho, rfl⟩ := Option.map_eq_some_iff.1 h
        obtain ⟨o', ho', rfl⟩ := Option.map_eq_some_iff.1 h'
        rw [ho] at ho'
        cases ho'
        exact alu _ _
  · split at h
    · rename_i q
      rw [if_pos q] at h'
      split at h
      · rename_i q; rw [if_pos q] at h'; cases h; cases h'; exact .ja ..
      · cases h
    · rename_i q
      rw [if_neg q] at h'
      split at h
      · rename_i q
        rw [if_pos q] at h'
        split at h
        · split at h'
          · cases h; cases h'; exact .call ..
          · cases h'
        · cases h
      · rename_i q
        rw [if_neg q] at h'
        split at h
        · rename_i q
          rw [if_pos q] at h'
          split at h
          · rename_i q; rw [if_pos q] at h'; cases h; cases h'; exact .exit
          · cases h
        · rename_i q
          rw [if_neg q] at h'
          obtain ⟨o, ho, rfl⟩ := Option.map_eq_some_iff.1 h
          obtain ⟨o', ho', rfl⟩ := Option.map_eq_some_iff.1 h'
          rw [ho] at ho'
          cases ho'
          exact jcc _ _
  · obtain ⟨o, ho, rfl⟩ := Option.map_eq_some_iff.1 h
    obtain ⟨o', ho', rfl⟩ := Option.map_eq_some_iff.1 h'
    rw [ho] at ho'
    cases ho'
    exact jcc _ _
  · split at h
    · cases h
    split at h'
    · cases h'
    split at h
    · rename_i q
      rw [if_pos q] at h'
      split at h
      · rename_i q; rw [if_pos q] at h'; cases h; cases h'; exact .neg ..
      · cases h
    · rename_i q
      rw [if_neg q] at h'
      obtain ⟨o, ho, rfl⟩ := Option.map_eq_some_iff.1 h
      obtain ⟨o', ho', rfl⟩ := Option.map_eq_some_iff.1 h'
      rw [ho] at ho'
      cases ho'
      exact alu _ _

theorem stops_str (c : Char) (h : isHexDigit c = false) (r : Str) : Stops (c :: r) := by
  intro d hd
  cases hd
  exact h

theorem stops_lit {l r : Str} (h : (match l with | c :: _ => !isHexDigit c | [] => false) = true) : Stops (l ++ r) := by
  cases l with
  | nil => cases h
  | cons c l => exact stops_str c (by simpa using h) _

/-- What two texts start with is taken away. -/
local macro "strip " h:ident : tactic => `(tactic| replace $h := List.append_cancel_left $h)

theorem place_inj {a b : BitVec 4} {o o' : BitVec 16} {r r' : Str} (e : place a o ++ r = place b o' ++ r') : a = b ∧ o = o' ∧ r = r' := by
  simp only [place, List.append_assoc] at e
  strip e
  obtain ⟨e1, e⟩ := reg_inj (stops_lit (by decide)) (stops_lit (by decide)) e
  strip e
  obtain ⟨e2, e⟩ := intP16_inj (stops_lit (by decide)) (stops_lit (by decide)) e
  exact ⟨e1, e2, List.append_cancel_left e⟩

theorem end_stops : Stops (str "\n") := stops_str '\n' (by decide) _

theorem like_asm {v v' : BitVec 64} {i i' : Instr} (h : Like i i') (e : asm v i ++ str "\n" = asm v' i' ++ str "\n") :
    (i = i' ∨ ∃ d k k', i = .ldimm d k ∧ i' = .ldimm d k') ∧ ((∃ d k, i = .ldimm d k) → v = v') := by
  cases h with
  | alur w o d r d' r' =>
    simp only [asm_alur, register_eq, List.append_assoc] at e
    obtain ⟨q1, e⟩ := wr_inj (stops_lit (by decide)) (stops_lit (by decide)) e
    strip e
    strip e
    strip e
    obtain ⟨q2, e⟩ := wr_inj end_stops end_stops e
    clear e
    subst q1
    subst q2
    exact ⟨.inl rfl, fun ⟨_, _, k⟩ => by cases k⟩
  | alui w o d k d' k' =>
    simp only [asm_alui, register_eq, signed_eq, List.append_assoc] at e
    obtain ⟨q3, e⟩ := wr_inj (stops_lit (by decide)) (stops_lit (by decide)) e
    strip e
    strip e
    strip e
    obtain ⟨q4, e⟩ := int32_inj end_stops end_stops e
    clear e
    subst q3
    subst q4
    exact ⟨.inl rfl, fun ⟨_, _, k⟩ => by cases k⟩
  | neg w d d' =>
    simp only [asm_neg, register_eq, List.append_assoc] at e
    obtain ⟨q5, e⟩ := wr_inj (stops_lit (by decide)) (stops_lit (by decide)) e
    clear e
    subst q5
    exact ⟨.inl rfl, fun ⟨_, _, k⟩ => by cases k⟩
  | swap be d k d' k' =>
    simp only [asm_swap, register_true, signed_eq, List.append_assoc] at e
    obtain ⟨q6, e⟩ := reg_inj (stops_lit (by decide)) (stops_lit (by decide)) e
    strip e
    strip e
    obtain ⟨q7, e⟩ := int32_inj (stops_lit (by decide)) (stops_lit (by decide)) e
    clear e
    subst q6
    subst q7
    exact ⟨.inl rfl, fun ⟨_, _, k⟩ => by cases k⟩
  | ldimm d k d' k' =>
    simp only [asm_ldimm, register_true, hex_wide, List.append_assoc] at e
    obtain ⟨q8, e⟩ := reg_inj (stops_lit (by decide)) (stops_lit (by decide)) e
    strip e
    obtain ⟨e1, e⟩ := hex_inj v.isLt v'.isLt (stops_lit (by decide)) (stops_lit (by decide)) e
    clear e
    subst q8
    exact ⟨.inr ⟨_, _, _, rfl, rfl⟩, fun _ => BitVec.eq_of_toNat_eq e1⟩
  | ldx sx z d r o d' r' o' =>
    simp only [asm_ldx, register_true, memory_eq, List.append_assoc] at e
    obtain ⟨q9, e⟩ := reg_inj (stops_lit (by decide)) (stops_lit (by decide)) e
    strip e
    strip e
    strip e
    strip e
    obtain ⟨q10, q11, e⟩ := place_inj e
    clear e
    subst q9
    subst q10
    subst q11
    exact ⟨.inl rfl, fun ⟨_, _, k⟩ => by cases k⟩
  | st z d o k d' o' k' =>
    simp only [asm_st, signed_eq, memory_eq, List.append_assoc] at e
    strip e
    strip e
    strip e
    obtain ⟨q12, q13, e⟩ := place_inj e
    strip e
    obtain ⟨q14, e⟩ := int32_inj end_stops end_stops e
    clear e
    subst q12
    subst q13
    subst q14
    exact ⟨.inl rfl, fun ⟨_, _, k⟩ => by cases k⟩
  | stx z d r o d' r' o' =>
    simp only [asm_stx, register_true, memory_eq, List.append_assoc] at e
    strip e
    strip e
    strip e
    obtain ⟨q15, q16, e⟩ := place_inj e
    strip e
    obtain ⟨q17, e⟩ := reg_inj end_stops end_stops e
    clear e
    subst q15
    subst q16
    subst q17
    exact ⟨.inl rfl, fun ⟨_, _, k⟩ => by cases k⟩
  | ja o o' =>
    simp only [asm_ja, offset16, List.append_assoc] at e
    strip e
    obtain ⟨q18, e⟩ := intP16_inj end_stops end_stops e
    clear e
    subst q18
    exact ⟨.inl rfl, fun ⟨_, _, k⟩ => by cases k⟩
  | jccr w c d r o d' r' o' =>
    simp only [asm_jccr, register_eq, offset16, List.append_assoc] at e
    strip e
    obtain ⟨q19, e⟩ := wr_inj (stops_lit (by decide)) (stops_lit (by decide)) e
    strip e
    strip e
    strip e
    obtain ⟨q20, e⟩ := wr_inj (stops_lit (by decide)) (stops_lit (by decide)) e
    strip e
    obtain ⟨q21, e⟩ := intP16_inj end_stops end_stops e
    clear e
    subst q19
    subst q20
    subst q21
    exact ⟨.inl rfl, fun ⟨_, _, k⟩ => by cases k⟩
  | jcci w c d k o d' k' o' =>
    have q : ∀ k : BitVec 32, hexa k.toNat = hex k.toNat := fun k => hexa_eq (by have := k.isLt; omega)
    simp only [asm_jcci, register_eq, offset16, q, List.append_assoc] at e
    strip e
    obtain ⟨q22, e⟩ := wr_inj (stops_lit (by decide)) (stops_lit (by decide)) e
    strip e
    strip e
    strip e
    obtain ⟨q23, e⟩ := hex32_inj (stops_lit (by decide)) (stops_lit (by decide)) e
    strip e
    obtain ⟨q24, e⟩ := intP16_inj end_stops end_stops e
    clear e
    subst q22
    subst q23
    subst q24
    exact ⟨.inl rfl, fun ⟨_, _, k⟩ => by cases k⟩
  | call k k' =>
    simp only [asm_call, helper, signed_eq, offset32, List.append_assoc] at e
    strip e
    refine ⟨.inl ?_, fun ⟨_, _, k⟩ => by cases k⟩
    split at e <;> split at e
    · simp only [List.append_assoc] at e
      strip e
      have := BitVec.toInt_lt (x := k)
      have := BitVec.toInt_lt (x := k')
      have := BitVec.le_toInt (x := k)
      have := BitVec.le_toInt (x := k')
      obtain ⟨e1, _⟩ := intP_inj (by omega) (by omega) (stops_lit (by decide)) (stops_lit (by decide)) e
      rw [BitVec.eq_of_toInt_eq e1]
    · simp at e
    · simp at e
    · obtain ⟨rfl, e⟩ := int32_inj end_stops end_stops (List.append_cancel_left (List.append_cancel_left e))
      rfl
  | exit => exact ⟨.inl rfl, fun ⟨_, _, k⟩ => by cases k⟩

theorem shown_inj {s' : Slot} {i' : Instr} {v v' : BitVec 64} (h : decode s = some i) (h' : decode s' = some i') (e : shown s.code v i = shown s'.code v' i') :
    (i = i' ∨ ∃ d k k', i = .ldimm d k ∧ i' = .ldimm d k') ∧ ((∃ d k, i = .ldimm d k) → v = v') := by
  simp only [shown_eq, headOf, List.append_assoc] at e
  strip e
  obtain ⟨hc, e⟩ := hex2_inj (stops_lit (by decide)) (stops_lit (by decide)) e
  exact like_asm (decode_like hc h h') (List.append_cancel_left e)

/-! ## The text of a program -/

theorem num_no {l : Str} (h : ∀ c ∈ l, isHexDigit c = true) : '\n' ∉ l := fun k => by have := h _ k; revert this; decide

theorem dec_no {n : Nat} (h : n < 10 ^ 20) : '\n' ∉ dec n ∧ (dec n).length ≤ 20 := ⟨num_no (dec_spec h).1, (dec_spec h).2.1⟩

theorem hex_no {n : Nat} (h : n < 2 ^ 64) : '\n' ∉ hex n ∧ (hex n).length ≤ 16 := ⟨num_no (hex_spec h).1, (hex_spec h).2.1⟩

theorem wr_no (w : Bool) (r : BitVec 4) : '\n' ∉ wr w r ∧ (wr w r).length ≤ 21 := by
  have := r.isLt
  obtain ⟨h1, h2⟩ := dec_no (n := r.toNat) (by omega)
  unfold wr
  refine ⟨?_, by simp; omega⟩
  cases w <;> simp [h1]

theorem reg_no (r : BitVec 4) : '\n' ∉ reg r ∧ (reg r).length ≤ 21 := wr_no false r

theorem intP_no {i : Int} (h : i.natAbs < 10 ^ 20) : '\n' ∉ intP i ∧ (intP i).length ≤ 21 := by
  obtain ⟨h1, h2⟩ := dec_no h
  unfold intP
  split <;> simp [h1, h2]

theorem int_no {i : Int} (h : i.natAbs < 10 ^ 20) : '\n' ∉ int i ∧ (int i).length ≤ 21 := by
  obtain ⟨h1, h2⟩ := dec_no h
  unfold int
  split
  · simp [h1, h2]
  · exact ⟨h1, by omega⟩

theorem int32_no (k : BitVec 32) : '\n' ∉ int k.toInt ∧ (int k.toInt).length ≤ 21 := by
  have := BitVec.toInt_lt (x := k)
  have := BitVec.le_toInt (x := k)
  exact int_no (by omega)

theorem intP32_no (k : BitVec 32) : '\n' ∉ intP k.toInt ∧ (intP k.toInt).length ≤ 21 := by
  have := BitVec.toInt_lt (x := k)
  have := BitVec.le_toInt (x := k)
  exact intP_no (by omega)

theorem intP16_no (k : BitVec 16) : '\n' ∉ intP k.toInt ∧ (intP k.toInt).length ≤ 21 := by
  have := BitVec.toInt_lt (x := k)
  have := BitVec.le_toInt (x := k)
  exact intP_no (by omega)

theorem place_no (r : BitVec 4) (o : BitVec 16) : '\n' ∉ place r o ∧ (place r o).length ≤ 45 := by
  obtain ⟨h1, h2⟩ := reg_no r
  obtain ⟨h3, h4⟩ := intP16_no o
  unfold place
  refine ⟨by simp [str, h1, h3], by simp [str]; omega⟩

theorem memory_no (sx : Bool) (z : Size) (r : BitVec 4) (o : BitVec 16) : '\n' ∉ memory sx z r o ∧ (memory sx z r o).length ≤ 60 := by
  obtain ⟨h1, h2⟩ := place_no r o
  rw [memory_eq]
  cases sx <;> cases z <;> exact ⟨by simp [str, width, h1], by simp [str, width]; omega⟩

theorem assign_no (o : AluOp) : '\n' ∉ assign o ∧ (assign o).length ≤ 4 := by cases o <;> decide

theorem compare_no (o : Cond) : '\n' ∉ compare o ∧ (compare o).length ≤ 4 := by cases o <;> decide

theorem asm_no (v : BitVec 64) : ∀ i : Instr, '\n' ∉ asm v i ∧ (asm v i).length ≤ 150
  | .alu w o d (.reg r) => by
    obtain ⟨h1, h2⟩ := wr_no (!w) d
    obtain ⟨h3, h4⟩ := wr_no (!w) r
    obtain ⟨h5, h6⟩ := assign_no o
    rw [asm_alur, register_eq, register_eq]
    exact ⟨by simp [h1, h3, h5], by simp; omega⟩
  | .alu w o d (.imm k) => by
    obtain ⟨h1, h2⟩ := wr_no (!w) d
    obtain ⟨h3, h4⟩ := int32_no k
    obtain ⟨h5, h6⟩ := assign_no o
    rw [asm_alui, register_eq, signed_eq]
    exact ⟨by simp [h1, h3, h5], by simp; omega⟩
  | .neg w d => by
    obtain ⟨h1, h2⟩ := wr_no (!w) d
    rw [asm_neg, register_eq]
    exact ⟨by simp [h1], by simp; omega⟩
  | .swap be d k => by
    obtain ⟨h1, h2⟩ := reg_no d
    obtain ⟨h3, h4⟩ := int32_no k
    rw [asm_swap, register_true, signed_eq]
    cases be <;> exact ⟨by simp [h1, h3], by simp; omega⟩
  | .ldimm d k => by
    obtain ⟨h1, h2⟩ := reg_no d
    obtain ⟨h3, h4⟩ := hex_no v.isLt
    rw [asm_ldimm, register_true, hex_wide]
    exact ⟨by simp [h1, h3], by simp; omega⟩
  | .ldx sx z d r o => by
    obtain ⟨h1, h2⟩ := reg_no d
    obtain ⟨h3, h4⟩ := memory_no sx z r o
    rw [asm_ldx, register_true]
    exact ⟨by simp [h1, h3], by simp; omega⟩
  | .st z d o k => by
    obtain ⟨h1, h2⟩ := int32_no k
    obtain ⟨h3, h4⟩ := memory_no false z d o
    rw [asm_st, signed_eq]
    exact ⟨by simp [h1, h3], by simp; omega⟩
  | .stx z d r o => by
    obtain ⟨h1, h2⟩ := reg_no r
    obtain ⟨h3, h4⟩ := memory_no false z d o
    rw [asm_stx, register_true]
    exact ⟨by simp [h1, h3], by simp; omega⟩
  | .ja o => by
    obtain ⟨h1, h2⟩ := intP16_no o
    rw [asm_ja, offset16]
    exact ⟨by simp [h1], by simp; omega⟩
  | .jcc w c d (.reg r) o => by
    obtain ⟨h1, h2⟩ := wr_no (!w) d
    obtain ⟨h3, h4⟩ := wr_no (!w) r
    obtain ⟨h5, h6⟩ := compare_no c
    obtain ⟨h7, h8⟩ := intP16_no o
    rw [asm_jccr, register_eq, register_eq, offset16]
    exact ⟨by simp [h1, h3, h5, h7], by simp; omega⟩
  | .jcc w c d (.imm k) o => by
    have := k.isLt
    obtain ⟨h1, h2⟩ := wr_no (!w) d
    obtain ⟨h3, h4⟩ := hex_no (n := k.toNat) (by omega)
    obtain ⟨h5, h6⟩ := compare_no c
    obtain ⟨h7, h8⟩ := intP16_no o
    rw [asm_jcci, register_eq, hexa_eq (by omega), offset16]
    exact ⟨by simp [h1, h3, h5, h7], by simp; omega⟩
  | .call k => by
    obtain ⟨h1, h2⟩ := int32_no k
    obtain ⟨h3, h4⟩ := intP32_no k
    rw [asm_call, helper, signed_eq, offset32]
    split <;> exact ⟨by simp [h1, h3], by simp; omega⟩
  | .exit => by rw [asm_exit]; decide

theorem hex2_no (c : BitVec 8) : '\n' ∉ hex2 c.toNat ∧ (hex2 c.toNat).length ≤ 17 := by
  have := c.isLt
  obtain ⟨h1, h2⟩ := hex_no (n := c.toNat) (by omega)
  unfold hex2
  split
  · simp [h1]; omega
  · exact ⟨h1, by omega⟩

theorem headOf_no (c : BitVec 8) : '\n' ∉ headOf c ∧ (headOf c).length ≤ 20 := by
  obtain ⟨h1, h2⟩ := hex2_no c
  unfold headOf
  exact ⟨by simp [str, h1], by simp [str]; omega⟩

theorem halves_tail {s : Slot} {ss : List Slot} (h : Listable (s :: ss)) : Listable ss :=
  ⟨fun t ht => h.known t (List.mem_cons_of_mem _ ht), fun k t ht hc => h.halves (k + 1) t ht hc⟩

theorem decode_zero {s : Slot} (h : s.code = 0) : decode s = none := by
  unfold decode
  simp [h]

theorem decode_wide {s : Slot} {d k : BitVec 4} (h : decode s = some (.ldimm d k)) : s.code = 0x18 := by
  have h8 : s.code.toNat % 8 = 0 ∨ s.code.toNat % 8 = 1 ∨ s.code.toNat % 8 = 2 ∨ s.code.toNat % 8 = 3 ∨ s.code.toNat % 8 = 4 ∨ s.code.toNat % 8 = 5 ∨ s.code.toNat % 8 = 6 ∨ s.code.toNat % 8 = 7 := by omega
  unfold decode at h
  rcases h8 with e | e | e | e | e | e | e | e <;> simp only [e] at h
  · split at h
    · rename_i q; exact BitVec.eq_of_toNat_eq q
    · cases h
  all_goals
    repeat' split at h
    all_goals first
      | cases h; done
      | (obtain ⟨_, _, q⟩ := Option.map_eq_some_iff.1 h; cases q)

theorem entries_text : ∀ (ss : List Slot) (k : Nat), Listable ss → k + ss.length < 10 ^ 20 → ∃ l, entries .bpf k ss = .ok l ∧ l.flatten = Listing.text k ss ∧ ∀ m ∈ l, m.length < 200
  | [], _, _, _ => ⟨[], rfl, rfl, by simp⟩
  | s :: ss, k, h, hk => by
    obtain ⟨l, e1, e2, e3⟩ := entries_text ss (k + 1) (halves_tail h) (by simp at hk; omega)
    unfold entries
    rw [e1]
    by_cases hc : s.code = 0
    · refine ⟨l, ?_, ?_, e3⟩
      · unfold entry
        rw [if_pos hc]
        rfl
      · unfold Listing.text
        rw [decode_zero hc]
        exact e2
    · obtain ⟨i, hi, hn⟩ := h.known s (List.mem_cons_self ..) hc
      have hl := line_shown (next := ss.head?) hi (fun d q e => by
        subst e
        have := h.halves 0 s rfl (decode_wide hi)
        cases ss with
        | nil => exact absurd rfl this
        | cons _ _ => simp) hn
      have hkd : k < 10 ^ 20 := by simp at hk; omega
      refine ⟨(str "[" ++ (dec k ++ str "] ")) :: shown s.code (loaded s ss.head?) i :: l, ?_, ?_, ?_⟩
      · unfold entry
        rw [if_neg hc, hl]
        rfl
      · unfold Listing.text
        rw [hi]
        dsimp only
        rw [nat_eq hkd, List.flatten_cons, List.flatten_cons, e2]
        simp [str]
      · intro m hm
        rcases List.mem_cons.1 hm with rfl | hm
        · have := (dec_no hkd).2
          simp [str]; omega
        · rcases List.mem_cons.1 hm with rfl | hm
          · rw [shown_eq]
            have := (headOf_no s.code).2
            have := (asm_no (loaded s ss.head?) i).2
            simp [str]; omega
          · exact e3 m hm

/-- **C71**: the listing of a program (`print_bpf`, the default, and `epasstool print`) is printed without touching anything it must not, every message fits its buffer of 200 bytes, and what is
printed is the program in assembly language. -/
theorem C71_text {P : List Slot} (h : Listable P) (hl : P.length < 2 ^ 32) : ∃ l, listing .bpf P = .ok l ∧ l.flatten = Listing.text 0 P ∧ ∀ m ∈ l, m.length < 200 :=
  entries_text P 0 h (by omega)

end Verif.Tool
