import Verif.Tool.DisasmProps

/-!
# C71: what the listing of a program says

`C71_text` (Verif/Tool/DisasmProps.lean) says what is printed.  Here: whoever reads the listing knows what the program does, except for what kind of thing a wide load loads.
-/

namespace Verif.Tool
open Verif.Opts (Str)
open Verif.Bpf
open Verif.Listing (asm shown loaded Listable)

/-- A text that ends in its only newline is where it is in a longer one. -/
theorem cut_line : ∀ {a b r q : Str}, '\n' ∉ a → '\n' ∉ b → a ++ ('\n' :: r) = b ++ ('\n' :: q) → a = b ∧ r = q
  | [], [], _, _, _, _, e => ⟨rfl, (List.cons.inj e).2⟩
  | [], c :: b, _, _, _, hb, e => absurd (List.mem_cons.2 (Or.inl (List.cons.inj e).1)) hb
  | c :: a, [], _, _, ha, _, e => absurd (List.mem_cons.2 (Or.inl (List.cons.inj e).1.symm)) ha
  | c :: a, d :: b, r, q, ha, hb, e => by
    obtain ⟨h1, h2⟩ := List.cons.inj e
    obtain ⟨h3, h4⟩ := cut_line (fun h => ha (List.mem_cons_of_mem _ h)) (fun h => hb (List.mem_cons_of_mem _ h)) h2
    exact ⟨by rw [h1, h3], h4⟩

/-! ## Numbered lines -/

/-- Lines for the slots that are not left out, each with its number. -/
def lines (skip : Slot → Bool) (f : Slot → Option Slot → Str) : Nat → List Slot → Str
  | _, [] => []
  | k, s :: ss => (if skip s then [] else '[' :: (dec k ++ (']' :: ' ' :: f s ss.head?))) ++ lines skip f (k + 1) ss

section
variable {skip : Slot → Bool} {f : Slot → Option Slot → Str}

theorem lines_skip {s : Slot} (h : skip s = true) (k : Nat) (ss : List Slot) : lines skip f k (s :: ss) = lines skip f (k + 1) ss := by
  rw [lines, if_pos h]
  rfl

theorem lines_keep {s : Slot} (h : skip s = false) (k : Nat) (ss : List Slot) :
    lines skip f k (s :: ss) = '[' :: (dec k ++ (']' :: ' ' :: (f s ss.head? ++ lines skip f (k + 1) ss))) := by
  rw [lines, if_neg (by simp [h])]
  simp

/-- They begin with the number of the first line, or are empty. -/
theorem lines_head : ∀ (ss : List Slot) (k : Nat), k + ss.length < 10 ^ 20 →
    (lines skip f k ss = [] ∧ ∀ s ∈ ss, skip s = true) ∨ ∃ k' r, k ≤ k' ∧ k' < 10 ^ 20 ∧ lines skip f k ss = '[' :: (dec k' ++ (']' :: ' ' :: r))
  | [], _, _ => Or.inl ⟨rfl, by simp⟩
  | s :: ss, k, h => by
    simp only [List.length_cons] at h
    cases hd : skip s with
    | false => exact Or.inr ⟨k, _, Nat.le_refl _, by omega, lines_keep hd k ss⟩
    | true =>
      rw [lines_skip hd]
      rcases lines_head ss (k + 1) (by omega) with ⟨h1, h2⟩ | ⟨k', r, h1, h2, h3⟩
      · refine Or.inl ⟨h1, fun t ht => ?_⟩
        rcases List.mem_cons.1 ht with rfl | ht
        · exact hd
        · exact h2 t ht
      · exact Or.inr ⟨k', r, by omega, h2, h3⟩

theorem bracket_stops (r : Str) : Stops (']' :: r) := stops_str ']' (by decide) r

/-- The slot is left out, or is not there. -/
def LeftOut (skip : Slot → Bool) (P : List Slot) (j : Nat) : Prop := ∀ s, P[j]? = some s → skip s = true

/-- Lines are read back: the same slots are left out, and the others have the same text. -/
theorem lines_inj (hf : ∀ s t n m r q, skip s = false → skip t = false → f s n ++ r = f t m ++ q → f s n = f t m ∧ r = q) : ∀ (P Q : List Slot) (k : Nat), k + P.length < 10 ^ 20 →
    k + Q.length < 10 ^ 20 → lines skip f k P = lines skip f k Q → ∀ j, (LeftOut skip P j ∧ LeftOut skip Q j) ∨
    ∃ s t, P[j]? = some s ∧ Q[j]? = some t ∧ skip s = false ∧ skip t = false ∧ f s P[j + 1]? = f t Q[j + 1]?
  | [], Q, k, _, hq, e, j => by
    rcases lines_head Q k hq with ⟨_, h⟩ | ⟨k', r, _, _, h⟩
    · exact Or.inl ⟨fun s hs => by simp at hs, fun s hs => h s (List.mem_of_getElem? hs)⟩
    · rw [h] at e; cases e
  | P, [], k, hp, _, e, j => by
    rcases lines_head P k hp with ⟨_, h⟩ | ⟨k', r, _, _, h⟩
    · exact Or.inl ⟨fun s hs => h s (List.mem_of_getElem? hs), fun s hs => by simp at hs⟩
    · rw [h] at e; cases e
  | s :: P, t :: Q, k, hp, hq, e, j => by
    simp only [List.length_cons] at hp hq
    cases hs : skip s with
    | true =>
      rw [lines_skip hs] at e
      cases ht : skip t with
      | true =>
        rw [lines_skip ht] at e
        have ih := lines_inj hf P Q (k + 1) (by omega) (by omega) e
        cases j with
        | zero => exact Or.inl ⟨fun x h => by cases h; exact hs, fun x h => by cases h; exact ht⟩
        | succ j => exact ih j
      | false =>
        rw [lines_keep ht] at e
        rcases lines_head (skip := skip) (f := f) P (k + 1) (by omega) with ⟨h, _⟩ | ⟨k', r, h1, h2, h3⟩
        · rw [h] at e; cases e
        · rw [h3] at e
          have := (dec_inj h2 (by omega : k < 10 ^ 20) (bracket_stops _) (bracket_stops _) (List.cons.inj e).2).1
          omega
    | false =>
      rw [lines_keep hs] at e
      cases ht : skip t with
      | true =>
        rw [lines_skip ht] at e
        rcases lines_head (skip := skip) (f := f) Q (k + 1) (by omega) with ⟨h, _⟩ | ⟨k', r, h1, h2, h3⟩
        · rw [h] at e; cases e
        · rw [h3] at e
          have := (dec_inj (by omega : k < 10 ^ 20) h2 (bracket_stops _) (bracket_stops _) (List.cons.inj e).2).1
          omega
      | false =>
        rw [lines_keep ht] at e
        obtain ⟨_, e⟩ := dec_inj (by omega : k < 10 ^ 20) (by omega) (bracket_stops _) (bracket_stops _) (List.cons.inj e).2
        obtain ⟨e1, e2⟩ := hf _ _ _ _ _ _ hs ht (List.cons.inj (List.cons.inj e).2).2
        have ih := lines_inj hf P Q (k + 1) (by omega) (by omega) e2
        cases j with
        | succ j => exact ih j
        | zero =>
          refine Or.inr ⟨s, t, rfl, rfl, hs, ht, ?_⟩
          rw [List.head?_eq_getElem?, List.head?_eq_getElem?] at e1
          exact e1
end

/-! ## Mode `bpf` -/

/-- The text of an instruction. -/
def told (s : Slot) (n : Option Slot) : Str := match decode s with | none => [] | some i => shown s.code (loaded s n) i

theorem text_lines : ∀ (ss : List Slot) (k : Nat), k + ss.length < 10 ^ 20 → Listing.text k ss = lines (fun s => (decode s).isNone) told k ss
  | [], _, _ => rfl
  | s :: ss, k, h => by
    simp only [List.length_cons] at h
    rw [Listing.text, lines, text_lines ss (k + 1) (by omega), told]
    cases hd : decode s with
    | none => rfl
    | some i =>
      dsimp only
      rw [nat_eq (by omega)]
      simp

theorem told_cut {s t : Slot} {n m : Option Slot} {r q : Str} (hs : (decode s).isNone = false) (ht : (decode t).isNone = false) (e : told s n ++ r = told t m ++ q) : told s n = told t m ∧ r = q := by
  unfold told at *
  cases hd : decode s with
  | none => rw [hd] at hs; cases hs
  | some i =>
    cases hd' : decode t with
    | none => rw [hd'] at ht; cases ht
    | some i' =>
      rw [hd, hd'] at e
      dsimp only at *
      rw [shown_eq, shown_eq] at e ⊢
      have no : ∀ (c : BitVec 8) (v : BitVec 64) (i : Instr), '\n' ∉ headOf c ++ asm v i := fun c v i h =>
        (List.mem_append.1 h).elim (headOf_no c).1 (asm_no v i).1
      have e' : (headOf s.code ++ asm (loaded s n) i) ++ ('\n' :: r) = (headOf t.code ++ asm (loaded t m) i') ++ ('\n' :: q) := by
        simpa [str] using e
      obtain ⟨e1, e2⟩ := cut_line (no _ _ _) (no _ _ _) e'
      exact ⟨by rw [← List.append_assoc, ← List.append_assoc, e1], e2⟩

/-- The programs have the same instruction in slot `j`, up to the kind of a wide load. -/
def Agree (P Q : List Slot) (j : Nat) : Prop :=
  (P[j]?.bind decode = none ∧ Q[j]?.bind decode = none) ∨
  ∃ s t i i', P[j]? = some s ∧ Q[j]? = some t ∧ decode s = some i ∧ decode t = some i' ∧ (i = i' ∨ ∃ d k k', i = .ldimm d k ∧ i' = .ldimm d k') ∧
    ((∃ d k, i = .ldimm d k) → loaded s P[j + 1]? = loaded t Q[j + 1]?)

theorem out_none {P : List Slot} {j : Nat} (h : LeftOut (fun s => (decode s).isNone) P j) : P[j]?.bind decode = none := by
  cases e : P[j]? with
  | none => rfl
  | some s => simpa using h s e

theorem text_agree {P Q : List Slot} (hp : P.length < 10 ^ 20) (hq : Q.length < 10 ^ 20) (e : Listing.text 0 P = Listing.text 0 Q) (j : Nat) : Agree P Q j := by
  rw [text_lines P 0 (by omega), text_lines Q 0 (by omega)] at e
  rcases lines_inj (skip := fun s => (decode s).isNone) (f := told) (fun s t n m r q hs ht => told_cut hs ht) P Q 0 (by omega) (by omega) e j with ⟨h1, h2⟩ | ⟨s, t, h1, h2, h3, h4, h5⟩
  · exact Or.inl ⟨out_none h1, out_none h2⟩
  · unfold told at h5
    cases hd : decode s with
    | none => rw [hd] at h3; cases h3
    | some i =>
      cases hd' : decode t with
      | none => rw [hd'] at h4; cases h4
      | some i' =>
        rw [hd, hd'] at h5
        obtain ⟨a, b⟩ := shown_inj hd hd' h5
        exact Or.inr ⟨s, t, i, i', h1, h2, hd, hd', a, b⟩

/-- Wide loads in the same place of both programs load the same kind of thing (a number, a map, a variable, ...). -/
def SameKinds (P Q : List Slot) : Prop :=
  ∀ (j : Nat) s t d d' k k', P[j]? = some s → Q[j]? = some t → decode s = some (.ldimm d k) → decode t = some (.ldimm d' k') → k = k'

theorem append_parts {a b c d : BitVec 32} (h : a ++ b = c ++ d) : a = c ∧ b = d := by
  have k : ∀ x y : BitVec 32, (x ++ y).toNat = x.toNat * 2 ^ 32 + y.toNat := fun x y => by
    rw [BitVec.toNat_append, ← Nat.shiftLeft_add_eq_or_of_lt y.isLt, Nat.shiftLeft_eq]
  have h := congrArg BitVec.toNat h
  rw [k, k] at h
  have := b.isLt
  have := d.isLt
  exact ⟨BitVec.eq_of_toNat_eq (by omega), BitVec.eq_of_toNat_eq (by omega)⟩

theorem agree_step {P Q : List Slot} (hp : Listable P) (hq : Listable Q) (hk : SameKinds P Q) (ha : ∀ j, Agree P Q j) (W : World) (pc : Int) (σ : St) : step W P pc σ = step W Q pc σ := by
  unfold step
  split
  · rfl
  · rcases ha pc.toNat with ⟨h1, h2⟩ | ⟨s, t, i, i', h1, h2, h3, h4, h5, h6⟩
    · cases e : P[pc.toNat]? with
      | none =>
        cases e' : Q[pc.toNat]? with
        | none => rfl
        | some t => rw [e'] at h2; dsimp only; rw [show decode t = none from h2]
      | some s =>
        rw [e] at h1
        dsimp only
        rw [show decode s = none from h1]
        cases e' : Q[pc.toNat]? with
        | none => rfl
        | some t => rw [e'] at h2; dsimp only; rw [show decode t = none from h2]
    · rw [h1, h2]
      dsimp only
      rw [h3, h4]
      have hi : i = i' := by
        rcases h5 with h | ⟨d, k, k', rfl, rfl⟩
        · exact h
        · rw [hk _ _ _ _ _ _ _ h1 h2 h3 h4]
      subst hi
      cases i with
      | ldimm d k =>
        dsimp only
        have hl := h6 ⟨d, k, rfl⟩
        cases e : P[pc.toNat + 1]? with
        | none => exact absurd e (hp.halves _ _ h1 (decode_wide h3))
        | some s2 =>
          cases e' : Q[pc.toNat + 1]? with
          | none => exact absurd e' (hq.halves _ _ h2 (decode_wide h4))
          | some t2 =>
            rw [e, e'] at hl
            have hl : s2.imm ++ s.imm = t2.imm ++ t.imm := hl
            obtain ⟨a, b⟩ := append_parts hl
            dsimp only
            rw [a, b]
      | _ => rfl

/-- **C71**: if the listings of two programs read the same, the programs do the same, whatever the state and the world they run in.  The listing does not tell what kind of thing a wide load loads, so
that must be known to be the same (`C71_violated_kind`). -/
theorem C71_same_partial {P Q : List Slot} (hp : Listable P) (hq : Listable Q) (hp' : P.length < 2 ^ 32) (hq' : Q.length < 2 ^ 32) (hk : SameKinds P Q) {l l' : List Str} (h : listing .bpf P = .ok l)
    (h' : listing .bpf Q = .ok l') (e : l.flatten = l'.flatten) (W : World) (n : Nat) (pc : Int) (σ : St) : run W P n pc σ = run W Q n pc σ := by
  obtain ⟨_, h1, h2, _⟩ := C71_text hp hp'
  obtain ⟨_, h3, h4, _⟩ := C71_text hq hq'
  rw [h] at h1
  rw [h'] at h3
  cases h1
  cases h3
  rw [h2, h4] at e
  have ha := text_agree (by omega) (by omega) e
  induction n generalizing pc σ with
  | zero => rfl
  | succ n ih =>
    unfold run
    rw [agree_step hp hq hk ha]
    split
    · exact ih ..
    · rfl

/-! ## Mode `bpf_detail` -/

theorem pad_inj {n : Nat} {a b r q : Str} (ha : ∀ c ∈ a, isHexDigit c = true) (hb : ∀ c ∈ b, isHexDigit c = true) (ha' : a ≠ []) (hb' : b ≠ []) (hr : Stops r) (hq : Stops q)
    (e : pad n a ++ r = pad n b ++ q) : a = b ∧ r = q := by
  have key : ∀ (i j : Nat), List.replicate i ' ' ++ (a ++ r) = List.replicate j ' ' ++ (b ++ q) → a ++ r = b ++ q := fun i => by
    induction i with
    | zero =>
      intro j e
      cases j with
      | zero => exact e
      | succ j =>
        cases a with
        | nil => exact absurd rfl ha'
        | cons c a =>
          have := ha c (List.mem_cons_self ..)
          rw [(List.cons.inj e).1] at this
          exact absurd this (by decide)
    | succ i ih =>
      intro j e
      cases j with
      | succ j => exact ih j (List.cons.inj e).2
      | zero =>
        cases b with
        | nil => exact absurd rfl hb'
        | cons c b =>
          have := hb c (List.mem_cons_self ..)
          rw [← (List.cons.inj e).1] at this
          exact absurd this (by decide)
  unfold pad at e
  exact split_digits ha hb hr hq (key _ _ (by simpa using e))

theorem hexPad_inj {k n m : Nat} {r q : Str} (hn : n < 2 ^ 64) (hm : m < 2 ^ 64) (hr : Stops r) (hq : Stops q) (e : pad k (hex n) ++ r = pad k (hex m) ++ q) : n = m ∧ r = q := by
  obtain ⟨a1, _, a3, _⟩ := hex_spec hn
  obtain ⟨b1, _, b3, _⟩ := hex_spec hm
  obtain ⟨e1, e2⟩ := pad_inj a1 b1 num_ne num_ne hr hq e
  exact ⟨by rw [← a3, ← b3, e1], e2⟩

theorem simple_inj {s t : Slot} {r q : Str} (e : simple s ++ r = simple t ++ q) : s = t ∧ r = q := by
  obtain ⟨c, d, s, o, k⟩ := s
  obtain ⟨c', d', s', o', k'⟩ := t
  have := c.isLt
  have := c'.isLt
  have := d.isLt
  have := d'.isLt
  have := s.isLt
  have := s'.isLt
  have := k.isLt
  have := k'.isLt
  have := BitVec.toInt_lt (x := o)
  have := BitVec.le_toInt (x := o)
  have := BitVec.toInt_lt (x := o')
  have := BitVec.le_toInt (x := o')
  unfold simple at e
  simp only [List.append_assoc] at e
  obtain ⟨e1, e⟩ := hexPad_inj (by omega) (by omega) (stops_lit (by decide)) (stops_lit (by decide)) e
  obtain ⟨e2, e⟩ := hex_inj (by omega) (by omega) (stops_lit (by decide)) (stops_lit (by decide)) (List.append_cancel_left e)
  obtain ⟨e3, e⟩ := hex_inj (by omega) (by omega) (stops_lit (by decide)) (stops_lit (by decide)) (List.append_cancel_left e)
  have stops : ∀ (p : Prop) [Decidable p] (x : Str), Stops ((if p then str " -" else str "  ") ++ x) := fun p _ x => by
    split <;> exact stops_lit (by decide)
  obtain ⟨e4, e⟩ := hexPad_inj (by omega) (by omega) (stops _ _) (stops _ _) (List.append_cancel_left e)
  have fin : o = o' ∧ r = q := by
    split at e <;> split at e
    · obtain ⟨e5, e⟩ := hexPad_inj (by omega) (by omega) (stops_lit (by decide)) (stops_lit (by decide)) (List.append_cancel_left e)
      exact ⟨BitVec.eq_of_toInt_eq (by omega), List.append_cancel_left e⟩
    · exact absurd (List.cons.inj (List.cons.inj e).2).1 (by decide)
    · exact absurd (List.cons.inj (List.cons.inj e).2).1 (by decide)
    · obtain ⟨e5, e⟩ := hexPad_inj (by omega) (by omega) (stops_lit (by decide)) (stops_lit (by decide)) (List.append_cancel_left e)
      exact ⟨BitVec.eq_of_toInt_eq (by omega), List.append_cancel_left e⟩
  obtain ⟨rfl, rfl⟩ := fin
  rw [BitVec.eq_of_toNat_eq e1, BitVec.eq_of_toNat_eq e2, BitVec.eq_of_toNat_eq e3, BitVec.eq_of_toNat_eq e4]
  exact ⟨rfl, rfl⟩

theorem entries_detail : ∀ (ss : List Slot) (k : Nat), Listable ss → k + ss.length < 10 ^ 20 →
    ∃ l, entries .bpfDetail k ss = .ok l ∧ l.flatten = lines (fun s => (decode s).isNone) (fun s n => told s n ++ simple s) k ss
  | [], _, _, _ => ⟨[], rfl, rfl⟩
  | s :: ss, k, h, hk => by
    simp only [List.length_cons] at hk
    obtain ⟨l, e1, e2⟩ := entries_detail ss (k + 1) (halves_tail h) (by omega)
    unfold entries
    rw [e1]
    by_cases hc : s.code = 0
    · refine ⟨l, ?_, ?_⟩
      · unfold entry
        rw [if_pos hc]
        rfl
      · rw [lines_skip (by rw [decode_zero hc]; rfl), e2]
    · obtain ⟨i, hi, hn⟩ := h.known s (List.mem_cons_self ..) hc
      have hl := line_shown (next := ss.head?) hi (fun d q e => by
        subst e
        have := h.halves 0 s rfl (decode_wide hi)
        cases ss with
        | nil => exact absurd rfl this
        | cons _ _ => simp) hn
      refine ⟨(str "[" ++ (dec k ++ str "] ")) :: shown s.code (loaded s ss.head?) i :: simple s :: l, ?_, ?_⟩
      · unfold entry
        rw [if_neg hc, hl]
        rfl
      · rw [lines_keep (by rw [hi]; rfl), List.flatten_cons, List.flatten_cons, List.flatten_cons, e2, told, hi]
        simp [str]

/-- **C71**, in the mode that prints both lines: if the listings of two programs read the same, the programs do the same. -/
theorem C71_detail {P Q : List Slot} (hp : Listable P) (hq : Listable Q) (hp' : P.length < 2 ^ 32) (hq' : Q.length < 2 ^ 32) {l l' : List Str} (h : listing .bpfDetail P = .ok l)
    (h' : listing .bpfDetail Q = .ok l') (e : l.flatten = l'.flatten) (W : World) (n : Nat) (pc : Int) (σ : St) : run W P n pc σ = run W Q n pc σ := by
  obtain ⟨_, h1, h2⟩ := entries_detail P 0 hp (by omega)
  obtain ⟨_, h3, h4⟩ := entries_detail Q 0 hq (by omega)
  unfold listing at h h'
  dsimp only at h h'
  rw [h1] at h
  rw [h3] at h'
  cases h
  cases h'
  rw [List.flatten_cons, List.flatten_cons, h2, h4] at e
  have e := List.append_cancel_left e
  have key := lines_inj (skip := fun s => (decode s).isNone) (f := fun s n => told s n ++ simple s) (fun s t n m r q hs ht e => by
    rw [List.append_assoc, List.append_assoc] at e
    obtain ⟨e1, e2⟩ := told_cut hs ht e
    obtain ⟨rfl, e3⟩ := simple_inj e2
    exact ⟨by rw [e1], e3⟩) P Q 0 (by omega) (by omega) e
  have same : ∀ {j : Nat} {s t : Slot}, P[j]? = some s → Q[j]? = some t → (decode s).isNone = false → s = t ∧ told s P[j + 1]? = told t Q[j + 1]? := fun {j s t} hs ht hd => by
    rcases key j with ⟨h1, _⟩ | ⟨s', t', h1, h2, h3, h4, h5⟩
    · exact absurd (h1 s hs) (by simp [hd])
    · rw [hs] at h1
      rw [ht] at h2
      cases h1
      cases h2
      obtain ⟨e1, e2⟩ := told_cut h3 h4 h5
      exact ⟨(simple_inj (r := []) (q := []) (by rw [e2])).1, e1⟩
  have hk : SameKinds P Q := fun j s t d d' k k' hs ht hd hd' => by
    have := (same hs ht (by rw [hd]; rfl)).1
    subst this
    rw [hd] at hd'
    cases hd'
    rfl
  have ha : ∀ j, Agree P Q j := fun j => by
    rcases key j with ⟨h1, h2⟩ | ⟨s, t, h1, h2, h3, h4, _⟩
    · exact Or.inl ⟨out_none h1, out_none h2⟩
    · obtain ⟨e1, e2⟩ := same h1 h2 h3
      subst e1
      unfold told at e2
      cases hd : decode s with
      | none => rw [hd] at h3; cases h3
      | some i =>
        rw [hd] at e2
        exact Or.inr ⟨s, s, i, i, h1, h2, hd, hd, Or.inl rfl, (shown_inj hd hd e2).2⟩
  induction n generalizing pc σ with
  | zero => rfl
  | succ n ih =>
    unfold run
    rw [agree_step hp hq hk ha]
    split
    · exact ih ..
    · rfl

/-! ## An example -/

/-- `r1 = 0x500000007; if r1 > 10 goto +1; r0 = *(u8 *)(r10 - 1); r0 += -3; exit` -/
def exListed : List Slot :=
  [⟨0x18, 1, 0, 0, 7⟩, ⟨0, 0, 0, 0, 5⟩, ⟨0x25, 1, 0, 1, 10⟩, ⟨0x71, 0, 10, 0xffff, 0⟩, ⟨0x07, 0, 0, 0, 0xfffffffd⟩, ⟨0x95, 0, 0, 0, 0⟩]

theorem exListed_listable : Listable exListed := by
  refine ⟨?_, ?_⟩
  · intro s hs hc
    simp only [exListed, List.mem_cons, List.not_mem_nil, or_false] at hs
    rcases hs with rfl | rfl | rfl | rfl | rfl | rfl
    · exact ⟨_, rfl, by simp⟩
    · exact absurd rfl hc
    · exact ⟨_, rfl, by simp⟩
    · exact ⟨_, rfl, by simp⟩
    · exact ⟨_, rfl, by simp⟩
    · exact ⟨_, rfl, by simp⟩
  · intro k s hs hc
    match k with
    | 0 => simp [exListed]
    | 1 => simp only [exListed] at hs; cases hs; exact absurd hc (by decide)
    | 2 => simp only [exListed] at hs; cases hs; exact absurd hc (by decide)
    | 3 => simp only [exListed] at hs; cases hs; exact absurd hc (by decide)
    | 4 => simp only [exListed] at hs; cases hs; exact absurd hc (by decide)
    | 5 => simp only [exListed] at hs; cases hs; exact absurd hc (by decide)
    | k + 6 => simp [exListed] at hs

example : ∃ l, listing .bpf exListed = .ok l ∧ l.flatten =
    ("[0] (18) r1 = 0x500000007 (imm64 ld)\n[2] (25) if r1 > 0xa goto pc+1\n" ++ "[3] (71) r0 = *(u8 *)(r10 -1)\n[4] (07) r0 += -3\n[5] (95) exit\n").toList := by
  refine ⟨[str "[0] ", str "(18) r1 = 0x500000007 (imm64 ld)\n", str "[2] ", str "(25) if r1 > 0xa goto pc+1\n", str "[3] ", str "(71) r0 = *(u8 *)(r10 -1)\n", str "[4] ", str "(07) r0 += -3\n",
    str "[5] ", str "(95) exit\n"], by decide +kernel, by decide +kernel⟩

/-- A register that the instruction does not use is not shown, so programs with the same listing need not be equal. -/
example : ∃ P Q : List Slot, P ≠ Q ∧ Listable P ∧ Listable Q ∧ SameKinds P Q ∧ listing .bpf P = listing .bpf Q := by
  refine ⟨[⟨0x95, 0, 0, 0, 0⟩], [⟨0x95, 3, 0, 0, 0⟩], by decide, ⟨?_, ?_⟩, ⟨?_, ?_⟩, ?_, by decide +kernel⟩
  · intro s hs _; rw [List.mem_singleton.1 hs]; exact ⟨.exit, rfl, by simp⟩
  · intro k s hs hc; cases k with
    | zero => cases hs; exact absurd hc (by decide)
    | succ k => cases hs
  · intro s hs _; rw [List.mem_singleton.1 hs]; exact ⟨.exit, rfl, by simp⟩
  · intro k s hs hc; cases k with
    | zero => cases hs; exact absurd hc (by decide)
    | succ k => cases hs
  · intro j s t d d' k k' hs ht hd _
    cases j with
    | zero => cases hs; cases hd
    | succ j => cases hs

/-! ## What listings do not say, and where the printing goes wrong -/

/-- Loads `lo` and `hi` into r0 as a thing of kind `k`, and returns it. -/
def loads (k : BitVec 4) (lo hi : BitVec 32) : List Slot := [⟨0x18, 0, k, 0, lo⟩, ⟨0, 0, 0, 0, hi⟩, ⟨0x95, 0, 0, 0, 0⟩]

/-- What a program returns within `n` steps. -/
def returns (W : World) (P : List Slot) (n : Nat) : Option (BitVec 64) :=
  match run W P n 0 ⟨fun _ => 0, fun _ => 0, []⟩ with
  | .done v _ => some v
  | _ => none

/-- **C71 violated**: a load of a map and a load of a number are printed the same way (the kind is in the source register, core/aux/disasm.c:232-246), although in a kernel where the map is not at
address 7 the programs do not return the same. -/
theorem C71_violated_kind : listing .bpf (loads 0 7 0) = listing .bpf (loads 1 7 0) ∧ ∃ W, returns W (loads 0 7 0) 2 ≠ returns W (loads 1 7 0) 2 :=
  ⟨by decide +kernel, ⟨fun _ _ => 0x1000, fun _ _ _ m => ⟨0, m, fun _ => 0⟩⟩, by decide +kernel⟩

/-- **C71 violated** in mode `detail`: the second half of a wide load has code 0 and is left out, so the upper half of the number is not shown (core/bpf_ir.c:1893-1895). -/
theorem C71_violated_detail : listing .detail (loads 0 7 0) = listing .detail (loads 0 7 5) ∧ ∀ W, returns W (loads 0 7 0) 2 = some 7 ∧ returns W (loads 0 7 5) 2 = some 0x500000007 :=
  ⟨by decide +kernel, fun _ => ⟨rfl, rfl⟩⟩

/-- **C71 violated**: with verbose level 3 the blocks are printed as well, instruction by instruction from a local copy, and for a wide load the printer reads the slot behind the copy
(core/bpf_ir.c:569-580, core/aux/disasm.c:232-240). -/
theorem C71_violated_blocks {s : Slot} {d k : BitVec 4} (h : decode s = some (.ldimm d k)) : blockLine s = .ub := by
  have hc := decode_wide h
  unfold blockLine line
  rw [hc]
  unfold lineLd
  rw [hc]
  rfl

/-- **C71 violated**: the table of the sign extending loads has three entries and is read at the fourth (core/aux/disasm.c:46-50, 213-219). -/
theorem C71_violated_table (s : Slot) (next : Option Slot) (h : s.code = 0x99) : line s next = .ub := by
  unfold line
  rw [h]
  unfold lineLdx
  rw [h]
  rfl

/-- **C71 violated**: the operators 14 and 15 have no name, and the null pointer is given to `%s` (core/aux/disasm.c:11-19, 52-60). -/
theorem C71_violated_null (s : Slot) (next : Option Slot) (h : s.code = 0xe7 ∨ s.code = 0xf7 ∨ s.code = 0xe5 ∨ s.code = 0xf5) : line s next = .ub := by
  rcases h with h | h | h | h
  · simp [line, lineAlu, isSdivSmod, isMovsx, aluString, h]
  · simp [line, lineAlu, isSdivSmod, isMovsx, aluString, h]
  · simp [line, lineJmp, jmpString, h]
  · simp [line, lineJmp, jmpString, h]

end Verif.Tool
