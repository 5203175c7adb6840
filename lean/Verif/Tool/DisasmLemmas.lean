import Verif.Tool.Disasm
import Verif.Spec.Listing
/-!
# Numbers and lines in listings
-/
namespace Verif.Tool
open Verif Verif.Bpf Verif.Opts

/-- The characters of numbers. -/
def isHexDigit (c : Char) : Bool := c.isDigit || (decide ('a'.toNat ≤ c.toNat) && decide (c.toNat ≤ 'f'.toNat))

theorem dig_spec : ∀ d < 16, isHexDigit (dig d) = true ∧ dig d = Nat.digitChar d := by decide

theorem digitChar_inj : ∀ d < 16, ∀ e < 16, Nat.digitChar d = Nat.digitChar e → d = e := by decide

/-- The value of a number. -/
def unnum (b : Nat) (s : Str) : Nat := s.foldl (fun a c => a * b + ((List.range 16).find? (fun d => Nat.digitChar d == c)).getD 0) 0

theorem find_digit : ∀ d < 16, ((List.range 16).find? (fun e => Nat.digitChar e == dig d)).getD 0 = d := by decide

theorem num_spec {b : Nat} (h2 : 2 ≤ b) (h16 : b ≤ 16) : ∀ (k n : Nat), n < b ^ (k + 1) → (∀ c ∈ num b (k + 1) n, isHexDigit c = true) ∧ (num b (k + 1) n).length ≤ k + 1 ∧ unnum b (num b (k + 1) n) = n ∧
    Nat.toDigits b n = num b (k + 1) n
  | k, n, h => by
    unfold num
    by_cases hn : n < b
    · rw [if_pos hn]
      refine ⟨fun c hc => ?_, Nat.succ_le_succ (Nat.zero_le _), ?_, ?_⟩
      · rw [List.mem_singleton.1 hc]; exact (dig_spec n (by omega)).1
      · simp [unnum, find_digit n (by omega)]
      · rw [Nat.toDigits_of_lt_base hn, (dig_spec n (by omega)).2]
    · rw [if_neg hn]
      cases k with
      | zero => simp at h; omega
      | succ k =>
        have hd : n / b < b ^ (k + 1) := (Nat.div_lt_iff_lt_mul (by omega)).2 (by rw [← Nat.pow_succ]; exact h)
        obtain ⟨i1, i2, i3, i4⟩ := num_spec h2 h16 k (n / b) hd
        have hm : n % b < b := Nat.mod_lt _ (by omega)
        refine ⟨fun c hc => ?_, ?_, ?_, ?_⟩
        · rcases List.mem_append.1 hc with hc | hc
          · exact i1 c hc
          · rw [List.mem_singleton.1 hc]; exact (dig_spec _ (by omega)).1
        · simp; omega
        · unfold unnum at i3 ⊢
          rw [List.foldl_append, i3]
          simp only [List.foldl_cons, List.foldl_nil]
          rw [find_digit _ (by omega), Nat.mul_comm, Nat.div_add_mod]
        · rw [← i4, (dig_spec _ (by omega : n % b < 16)).2]
          exact Nat.toDigits_of_base_le (by omega) (by omega)

theorem dec_spec {n : Nat} (h : n < 10 ^ 20) : (∀ c ∈ dec n, isHexDigit c = true) ∧ (dec n).length ≤ 20 ∧ unnum 10 (dec n) = n ∧ Nat.toDigits 10 n = dec n := num_spec (by omega) (by omega) 19 n h

theorem hex_spec {n : Nat} (h : n < 2 ^ 64) : (∀ c ∈ hex n, isHexDigit c = true) ∧ (hex n).length ≤ 16 ∧ unnum 16 (hex n) = n ∧ Nat.toDigits 16 n = hex n := num_spec (by omega) (by omega) 15 n h

/-! ## Reading numbers back -/

/-- What is behind a number does not go on with a digit. -/
def Stops (r : Str) : Prop := ∀ c, r.head? = some c → isHexDigit c = false

theorem split_digits {a a' r r' : Str} (ha : ∀ c ∈ a, isHexDigit c = true) (ha' : ∀ c ∈ a', isHexDigit c = true) (hr : Stops r) (hr' : Stops r') (e : a ++ r = a' ++ r') : a = a' ∧ r = r' := by
  induction a generalizing a' with
  | nil =>
    cases a' with
    | nil => exact ⟨rfl, e⟩
    | cons c a' =>
      have := hr c (by rw [show r = c :: (a' ++ r') from e]; rfl)
      rw [ha' c (List.mem_cons_self ..)] at this
      cases this
  | cons c a ih =>
    cases a' with
    | nil =>
      have := hr' c (by rw [show r' = c :: (a ++ r) from e.symm]; rfl)
      rw [ha c (List.mem_cons_self ..)] at this
      cases this
    | cons c' a' =>
      obtain ⟨e1, e2⟩ := List.cons.inj (show c :: (a ++ r) = c' :: (a' ++ r') from e)
      obtain ⟨e3, e4⟩ := ih (fun c hc => ha c (List.mem_cons_of_mem _ hc)) (fun c hc => ha' c (List.mem_cons_of_mem _ hc)) e2
      exact ⟨by rw [e1, e3], e4⟩

theorem dec_inj {n m : Nat} {r r' : Str} (hn : n < 10 ^ 20) (hm : m < 10 ^ 20) (hr : Stops r) (hr' : Stops r') (e : dec n ++ r = dec m ++ r') : n = m ∧ r = r' := by
  obtain ⟨a1, _, a3, _⟩ := dec_spec hn
  obtain ⟨b1, _, b3, _⟩ := dec_spec hm
  obtain ⟨e1, e2⟩ := split_digits a1 b1 hr hr' e
  exact ⟨by rw [← a3, ← b3, e1], e2⟩

theorem hex_inj {n m : Nat} {r r' : Str} (hn : n < 2 ^ 64) (hm : m < 2 ^ 64) (hr : Stops r) (hr' : Stops r') (e : hex n ++ r = hex m ++ r') : n = m ∧ r = r' := by
  obtain ⟨a1, _, a3, _⟩ := hex_spec hn
  obtain ⟨b1, _, b3, _⟩ := hex_spec hm
  obtain ⟨e1, e2⟩ := split_digits a1 b1 hr hr' e
  exact ⟨by rw [← a3, ← b3, e1], e2⟩

theorem dec_head {n : Nat} (hn : n < 10 ^ 20) {c : Char} {s : Str} (r : Str) (h : dec n ++ r = c :: s) (hr : Stops r) (hne : dec n ≠ []) : isHexDigit c = true := by
  obtain ⟨a1, _⟩ := dec_spec hn
  cases hd : dec n with
  | nil => exact absurd hd hne
  | cons d ds =>
    rw [hd] at h a1
    rw [← (List.cons.inj h).1]
    exact a1 d (List.mem_cons_self ..)

theorem num_ne {b k n : Nat} : num b (k + 1) n ≠ [] := by
  unfold num
  split <;> simp

theorem intP_inj {i j : Int} {r r' : Str} (hi : i.natAbs < 10 ^ 20) (hj : j.natAbs < 10 ^ 20) (hr : Stops r) (hr' : Stops r') (e : intP i ++ r = intP j ++ r') : i = j ∧ r = r' := by
  unfold intP at e
  split at e <;> split at e
  · obtain ⟨e1, e2⟩ := dec_inj hi hj hr hr' (List.cons.inj e).2
    exact ⟨by omega, e2⟩
  · exact absurd (List.cons.inj e).1 (by decide)
  · exact absurd (List.cons.inj e).1 (by decide)
  · obtain ⟨e1, e2⟩ := dec_inj hi hj hr hr' (List.cons.inj e).2
    exact ⟨by omega, e2⟩

theorem int_inj {i j : Int} {r r' : Str} (hi : i.natAbs < 10 ^ 20) (hj : j.natAbs < 10 ^ 20) (hr : Stops r) (hr' : Stops r') (e : int i ++ r = int j ++ r') : i = j ∧ r = r' := by
  unfold int at e
  split at e <;> split at e
  · obtain ⟨e1, e2⟩ := dec_inj hi hj hr hr' (List.cons.inj e).2
    exact ⟨by omega, e2⟩
  · have := dec_head hj _ (show dec j.natAbs ++ r' = '-' :: (dec i.natAbs ++ r) from e.symm) hr' num_ne
    exact absurd this (by decide)
  · have := dec_head hi _ (show dec i.natAbs ++ r = '-' :: (dec j.natAbs ++ r') from e) hr num_ne
    exact absurd this (by decide)
  · obtain ⟨e1, e2⟩ := dec_inj hi hj hr hr' e
    exact ⟨by omega, e2⟩

theorem reg_inj {a b : BitVec 4} {r r' : Str} (hr : Stops r) (hr' : Stops r') (e : reg a ++ r = reg b ++ r') : a = b ∧ r = r' := by
  have := a.isLt
  have := b.isLt
  obtain ⟨e1, e2⟩ := dec_inj (by omega) (by omega) hr hr' (List.cons.inj e).2
  exact ⟨BitVec.eq_of_toNat_eq e1, e2⟩

theorem wr_inj {w : Bool} {a b : BitVec 4} {r r' : Str} (hr : Stops r) (hr' : Stops r') (e : wr w a ++ r = wr w b ++ r') : a = b ∧ r = r' := by
  have := a.isLt
  have := b.isLt
  obtain ⟨e1, e2⟩ := dec_inj (by omega) (by omega) hr hr' (List.cons.inj e).2
  exact ⟨BitVec.eq_of_toNat_eq e1, e2⟩

theorem int32_inj {a b : BitVec 32} {r r' : Str} (hr : Stops r) (hr' : Stops r') (e : int a.toInt ++ r = int b.toInt ++ r') : a = b ∧ r = r' := by
  have := BitVec.toInt_lt (x := a)
  have := BitVec.toInt_lt (x := b)
  have := BitVec.le_toInt (x := a)
  have := BitVec.le_toInt (x := b)
  obtain ⟨e1, e2⟩ := int_inj (by omega) (by omega) hr hr' e
  exact ⟨BitVec.eq_of_toInt_eq e1, e2⟩

theorem intP16_inj {a b : BitVec 16} {r r' : Str} (hr : Stops r) (hr' : Stops r') (e : intP a.toInt ++ r = intP b.toInt ++ r') : a = b ∧ r = r' := by
  have := BitVec.toInt_lt (x := a)
  have := BitVec.toInt_lt (x := b)
  have := BitVec.le_toInt (x := a)
  have := BitVec.le_toInt (x := b)
  obtain ⟨e1, e2⟩ := intP_inj (by omega) (by omega) hr hr' e
  exact ⟨BitVec.eq_of_toInt_eq e1, e2⟩

theorem hex32_inj {a b : BitVec 32} {r r' : Str} (hr : Stops r) (hr' : Stops r') (e : hex a.toNat ++ r = hex b.toNat ++ r') : a = b ∧ r = r' := by
  have := a.isLt
  have := b.isLt
  obtain ⟨e1, e2⟩ := hex_inj (by omega) (by omega) hr hr' e
  exact ⟨BitVec.eq_of_toNat_eq e1, e2⟩

theorem hex2_inj {a b : BitVec 8} {r r' : Str} (hr : Stops r) (hr' : Stops r') (e : hex2 a.toNat ++ r = hex2 b.toNat ++ r') : a = b ∧ r = r' := by
  have ha := a.isLt
  have hb := b.isLt
  have key : ∀ n < 256, (∀ c ∈ hex2 n, isHexDigit c = true) ∧ unnum 16 (hex2 n) = n := by decide +kernel
  obtain ⟨e1, e2⟩ := split_digits (key _ ha).1 (key _ hb).1 hr hr' e
  exact ⟨BitVec.eq_of_toNat_eq (by rw [← (key _ ha).2, ← (key _ hb).2, e1]), e2⟩

end Verif.Tool
