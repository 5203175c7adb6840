import Verif.Show.Model
import Verif.Tool.DisasmProps
/-!
# The text of an instruction says what it is
-/
namespace Verif.Show
open Verif Verif.IR Verif.Edit
open Verif.Opts (Str)
open Verif.Tool (str dec hex int isHexDigit Stops dec_spec hex_spec dec_inj hex_inj int_inj stops_lit num_ne)

/-! ## Cutting texts -/

/-- The text is over or goes on with one of the characters `D`. -/
def Stop (D : Char → Bool) (r : Str) : Prop := ∀ c s, r = c :: s → D c = true

theorem cut {D : Char → Bool} : ∀ {a b r q : Str}, (∀ c ∈ a, D c = false) → (∀ c ∈ b, D c = false) → Stop D r → Stop D q → a ++ r = b ++ q → a = b ∧ r = q
  | [], [], _, _, _, _, _, _, e => ⟨rfl, e⟩
  | [], d :: b, r, q, _, hb, hr, _, e => by
    have := hr d (b ++ q) e
    rw [hb d (by simp)] at this
    cases this
  | c :: a, [], r, q, ha, _, _, hq, e => by
    have := hq c (a ++ r) e.symm
    rw [ha c (by simp)] at this
    cases this
  | c :: a, d :: b, r, q, ha, hb, hr, hq, e => by
    rw [List.cons_append, List.cons_append] at e
    injection e with e1 e2
    obtain ⟨h1, h2⟩ := cut (fun c h => ha c (List.mem_cons_of_mem _ h)) (fun c h => hb c (List.mem_cons_of_mem _ h)) hr hq e2
    exact ⟨by rw [e1, h1], h2⟩

theorem stop_nil {D : Char → Bool} : Stop D [] := fun _ _ e => by cases e

theorem stop_lit {D : Char → Bool} {l r : Str} (h : (match l with | c :: _ => D c | [] => false) = true) : Stop D (l ++ r) := by
  cases l with
  | nil => cases h
  | cons c l =>
    intro d s e
    injection e with e1 _
    rw [← e1]
    exact h

/-- Characters that are not in the text of an operand. -/
def brk (c : Char) : Bool := c = ' ' || c = ',' || c = '\n' || c = '>' || c = '/' || c = '+'

def Free (s : Str) : Prop := ∀ c ∈ s, brk c = false

theorem Free.append {a b : Str} (ha : Free a) (hb : Free b) : Free (a ++ b) := by
  intro c h
  rcases List.mem_append.1 h with h | h
  · exact ha c h
  · exact hb c h

theorem free_of {s : Str} (h : s.all (fun c => !brk c) = true) : Free s := by
  intro c hc
  have := List.all_eq_true.1 h c hc
  simpa using this

theorem brk_hex {c : Char} (h : isHexDigit c = true) : brk c = false := by
  cases hb : brk c with
  | false => rfl
  | true =>
    exfalso
    simp only [brk, Bool.or_eq_true, decide_eq_true_eq] at hb
    rcases hb with ((((hb | hb) | hb) | hb) | hb) | hb <;> subst hb <;> revert h <;> decide

theorem dec_free {n : Nat} (h : n < 10 ^ 20) : Free (dec n) := fun c hc => brk_hex ((dec_spec h).1 c hc)
theorem hex_free {n : Nat} (h : n < 2 ^ 64) : Free (hex n) := fun c hc => brk_hex ((hex_spec h).1 c hc)

theorem int_free {i : Int} (h : i.natAbs < 10 ^ 20) : Free ((if i < 0 then '-' :: dec i.natAbs else dec i.natAbs)) := by
  split
  · exact Free.append (a := ['-']) (free_of (by decide)) (dec_free h)
  · exact dec_free h

/-! ## Operands -/

/-- The text of a name: the stack pointer, an argument, a number. -/
def NameLike (s : Str) : Prop := ∃ n, n < 10 ^ 20 ∧ (s = str "R" ++ dec n ∨ s = str "arg" ++ dec n ∨ s = str "%" ++ dec n)

/-- The listing shows all of the constant: one of 32 bits is the extension of its low half, a builtin one is not filled in yet. -/
def Told : Val → Prop
  | .const _ c ct b => (b = .none → ct = .w64 ∨ ct = .w32 ∧ c = (c.setWidth 32).signExtend 64) ∧ (b ≠ .none → c = -1)
  | _ => True

/-- The same operand, but for names. -/
def VAlike (nm nm' : Nat → Str) : Val → Val → Prop
  | .const _ c _ _, .const _ c' _ _ => c = c'
  | .insn x, .insn y => nm x = nm' y
  | .undef, .undef => True
  | _, _ => False

/-- Positions that can be printed. -/
def PosOk (p : Pos) : Prop := ∀ n k, p = some (n, k) → n < 10 ^ 20

theorem lbr_hex {c : Char} (h : isHexDigit c = true) : decide (c = '[') = false := by
  cases hb : decide (c = '[') with
  | false => rfl
  | true =>
    exfalso
    have := of_decide_eq_true hb
    subst this
    revert h
    decide

/-- No bracket. -/
def NoBr (s : Str) : Prop := ∀ c ∈ s, decide (c = '[') = false

theorem NoBr.append {a b : Str} (ha : NoBr a) (hb : NoBr b) : NoBr (a ++ b) := by
  intro c h
  rcases List.mem_append.1 h with h | h
  · exact ha c h
  · exact hb c h

theorem nobr_of {s : Str} (h : s.all (fun c => !decide (c = '[')) = true) : NoBr s := by
  intro c hc
  have := List.all_eq_true.1 h c hc
  simpa using this

theorem dec_nobr {n : Nat} (h : n < 10 ^ 20) : NoBr (dec n) := fun c hc => lbr_hex ((dec_spec h).1 c hc)
theorem hex_nobr {n : Nat} (h : n < 2 ^ 64) : NoBr (hex n) := fun c hc => lbr_hex ((hex_spec h).1 c hc)

theorem name_free {s : Str} (h : NameLike s) : Free s ∧ NoBr s := by
  obtain ⟨n, hn, h | h | h⟩ := h <;> rw [h] <;> exact ⟨Free.append (free_of (by decide)) (dec_free hn), NoBr.append (nobr_of (by decide)) (dec_nobr hn)⟩

theorem const_free (c : BitVec 64) (ct : AluTy) (b : Builtin) : Free (constText c ct b) ∧ NoBr (constText c ct b) := by
  have h1 : c.toNat < 2 ^ 64 := c.isLt
  have h2 : c.toNat % 2 ^ 32 < 2 ^ 64 := by omega
  unfold constText
  split
  · exact ⟨Free.append (free_of (by decide)) (Free.append (hex_free h1) (free_of (by decide))), NoBr.append (nobr_of (by decide)) (NoBr.append (hex_nobr h1) (nobr_of (by decide)))⟩
  · exact ⟨Free.append (free_of (by decide)) (Free.append (hex_free h2) (free_of (by decide))), NoBr.append (nobr_of (by decide)) (NoBr.append (hex_nobr h2) (nobr_of (by decide)))⟩
  all_goals exact ⟨free_of (by decide), nobr_of (by decide)⟩

theorem val_free {nm : Nat → Str} {v : Val} (h : ∀ x, v = .insn x → NameLike (nm x)) : Free (valText nm v) ∧ NoBr (valText nm v) := by
  unfold valText
  split
  · exact name_free (h _ rfl)
  · exact const_free ..
  · exact ⟨Free.append (free_of (by decide)) (Free.append (const_free ..).1 (free_of (by decide))), NoBr.append (nobr_of (by decide)) (NoBr.append (const_free ..).2 (nobr_of (by decide)))⟩
  · exact ⟨Free.append (free_of (by decide)) (Free.append (const_free ..).1 (free_of (by decide))), NoBr.append (nobr_of (by decide)) (NoBr.append (const_free ..).2 (nobr_of (by decide)))⟩
  · exact ⟨free_of (by decide), nobr_of (by decide)⟩

theorem pos_free {p : Pos} (h : PosOk p) : Free (posText p) := by
  cases p with
  | none => exact free_of rfl
  | some o =>
    obtain ⟨n, k⟩ := o
    refine Free.append (free_of (by decide)) (Free.append (dec_free (h n k rfl)) (Free.append (free_of (by decide)) (Free.append ?_ (free_of (by decide)))))
    cases k <;> exact free_of (by decide)

theorem pos_stop (p : Pos) : Stop (fun c => decide (c = '[')) (posText p) := by
  cases p with
  | none => exact stop_nil
  | some o => exact stop_lit (by decide)

theorem tok_free {nm : Nat → Str} {v : Val} {p : Pos} (h : ∀ x, v = .insn x → NameLike (nm x)) (hp : PosOk p) : Free (tok nm v p) := Free.append (val_free h).1 (pos_free hp)

/-- The first character of a constant. -/
theorem const_head {c : BitVec 64} {ct : AluTy} {b : Builtin} (h : b = .none → ct ≠ .unknown) : ∃ d s, constText c ct b = d :: s ∧ (d = '0' ∨ d = '_') := by
  unfold constText
  split
  · exact ⟨_, _, rfl, .inl rfl⟩
  · exact ⟨_, _, rfl, .inl rfl⟩
  · exact absurd rfl (h rfl)
  · exact ⟨_, _, rfl, .inr rfl⟩
  · exact ⟨_, _, rfl, .inr rfl⟩

theorem told_known {k : CKind} {c : BitVec 64} {ct : AluTy} {b : Builtin} (h : Told (.const k c ct b)) : b = .none → ct ≠ .unknown := by
  intro hb e
  rcases h.1 hb with h | ⟨h, _⟩ <;> rw [e] at h <;> cases h

theorem name_head {s : Str} (h : NameLike s) : ∃ d r, s = d :: r ∧ (d = 'R' ∨ d = 'a' ∨ d = '%') := by
  obtain ⟨n, -, h | h | h⟩ := h <;> rw [h]
  · exact ⟨_, _, rfl, .inl rfl⟩
  · exact ⟨_, _, rfl, .inr (.inl rfl)⟩
  · exact ⟨_, _, rfl, .inr (.inr rfl)⟩

theorem const_inj {k k' : CKind} {c c' : BitVec 64} {ct ct' : AluTy} {b b' : Builtin} {r q : Str} (h : Told (.const k c ct b)) (h' : Told (.const k' c' ct' b')) (hr : r = q)
    (e : constText c ct b ++ r = constText c' ct' b' ++ q) : c = c' := by
  subst hr
  replace e := List.append_cancel_right e
  have g1 : c.toNat < 2 ^ 64 := c.isLt
  have g1' : c'.toNat < 2 ^ 64 := c'.isLt
  have g2 : c.toNat % 2 ^ 32 < 2 ^ 64 := by omega
  have g2' : c'.toNat % 2 ^ 32 < 2 ^ 64 := by omega
  have hk := told_known h
  have hk' := told_known h'
  by_cases hb : b = .none
  · by_cases hb' : b' = .none
    · subst hb hb'
      have s4 : Stops (str "(64)") := stops_lit (l := str "(64)") (r := []) (by decide)
      have s3 : Stops (str "(32)") := stops_lit (l := str "(32)") (r := []) (by decide)
      rcases h.1 rfl with h1 | ⟨h1, h2⟩ <;> rcases h'.1 rfl with h1' | ⟨h1', h2'⟩ <;> subst h1 h1'
      · have := List.append_cancel_left e
        exact BitVec.eq_of_toNat_eq (hex_inj g1 g1' s4 s4 this).1
      · have := List.append_cancel_left e
        exact absurd (hex_inj g1 g2' s4 s3 this).2 (by decide)
      · have := List.append_cancel_left e
        exact absurd (hex_inj g2 g1' s3 s4 this).2 (by decide)
      · have := List.append_cancel_left e
        have h3 := (hex_inj g2 g2' s3 s3 this).1
        rw [h2, h2']
        congr 1
        apply BitVec.eq_of_toNat_eq
        rw [BitVec.toNat_setWidth, BitVec.toNat_setWidth]
        exact h3
    · exfalso
      subst hb
      have : ∃ s, constText c ct .none = '0' :: s := by
        rcases h.1 rfl with h1 | ⟨h1, _⟩ <;> subst h1 <;> exact ⟨_, rfl⟩
      obtain ⟨s, hs⟩ := this
      have : ∃ s, constText c' ct' b' = '_' :: s := by
        cases b' with
        | none => exact absurd rfl hb'
        | _ => exact ⟨_, rfl⟩
      obtain ⟨s', hs'⟩ := this
      rw [hs, hs'] at e
      injection e with e _
      revert e
      decide
  · by_cases hb' : b' = .none
    · exfalso
      subst hb'
      have : ∃ s, constText c' ct' .none = '0' :: s := by
        rcases h'.1 rfl with h1 | ⟨h1, _⟩ <;> subst h1 <;> exact ⟨_, rfl⟩
      obtain ⟨s, hs⟩ := this
      have : ∃ s, constText c ct b = '_' :: s := by
        cases b with
        | none => exact absurd rfl hb
        | _ => exact ⟨_, rfl⟩
      obtain ⟨s', hs'⟩ := this
      rw [hs, hs'] at e
      injection e with e _
      revert e
      decide
    · rw [h.2 hb, h'.2 hb']

/-- Kinds of operands. -/
def kindOf : Val → Nat
  | .const .plain _ _ _ => 0
  | .const _ _ _ _ => 1
  | .insn _ => 2
  | .undef => 3

/-- The kind, from the first character. -/
def kindC (c : Char) : Nat := if c = '0' ∨ c = '_' then 0 else if c = 'h' then 1 else if c = 'u' then 3 else 2

theorem val_head {nm : Nat → Str} {v : Val} (h : ∀ x, v = .insn x → NameLike (nm x)) (ht : Told v) : ∃ d s, valText nm v = d :: s ∧ kindC d = kindOf v := by
  cases v with
  | const k c ct b =>
    cases k
    · obtain ⟨d, s, e, hd⟩ := const_head (c := c) (told_known ht)
      exact ⟨d, s, e, by rcases hd with hd | hd <;> subst hd <;> rfl⟩
    · exact ⟨_, _, rfl, rfl⟩
    · exact ⟨_, _, rfl, rfl⟩
  | insn x =>
    obtain ⟨d, s, e, hd⟩ := name_head (h x rfl)
    exact ⟨d, s, e, by rcases hd with hd | hd | hd <;> subst hd <;> rfl⟩
  | undef => exact ⟨_, _, rfl, rfl⟩

theorem val_inj {nm nm' : Nat → Str} {v w : Val} (h : ∀ x, v = .insn x → NameLike (nm x)) (h' : ∀ x, w = .insn x → NameLike (nm' x)) (ht : Told v) (ht' : Told w)
    (e : valText nm v = valText nm' w) : VAlike nm nm' v w := by
  have hk : kindOf v = kindOf w := by
    obtain ⟨d, s, e1, hd⟩ := val_head h ht
    obtain ⟨d', s', e1', hd'⟩ := val_head h' ht'
    rw [e1, e1'] at e
    injection e with e _
    rw [← hd, ← hd', e]
  cases v with
  | const k c ct b =>
    cases w with
    | const k' c' ct' b' =>
      show c = c'
      cases k with
      | plain =>
        cases k' with
        | plain => exact const_inj ht ht' (r := []) (q := []) rfl (by rw [List.append_nil, List.append_nil]; exact e)
        | rawoff => cases hk
        | rawoffRev => cases hk
      | rawoff =>
        cases k' with
        | plain => cases hk
        | rawoff => exact const_inj ht ht' rfl (List.append_cancel_left (as := str "hole(") e)
        | rawoffRev =>
          exfalso
          have e' : constText c ct b ++ str ")" = '-' :: (constText c' ct' b' ++ str ")") := List.append_cancel_left (as := str "hole(") e
          obtain ⟨d, s, e2, hd2⟩ := const_head (c := c) (told_known ht)
          rw [e2] at e'
          injection e' with e' _
          rw [e'] at hd2
          revert hd2
          decide
      | rawoffRev =>
        cases k' with
        | plain => cases hk
        | rawoff =>
          exfalso
          have e' : '-' :: (constText c ct b ++ str ")") = constText c' ct' b' ++ str ")" := List.append_cancel_left (as := str "hole(") e
          obtain ⟨d, s, e2, hd2⟩ := const_head (c := c') (told_known ht')
          rw [e2] at e'
          injection e' with e' _
          rw [← e'] at hd2
          revert hd2
          decide
        | rawoffRev => exact const_inj ht ht' rfl (List.append_cancel_left (as := str "hole(-") e)
    | insn y => cases k <;> cases hk
    | undef => cases k <;> cases hk
  | insn x =>
    cases w with
    | const k' c' ct' b' => cases k' <;> cases hk
    | insn y => exact e
    | undef => cases hk
  | undef =>
    cases w with
    | const k' c' ct' b' => cases k' <;> cases hk
    | insn y => cases hk
    | undef => trivial

theorem tok_val {nm nm' : Nat → Str} {v w : Val} {p p' : Pos} (h : ∀ x, v = .insn x → NameLike (nm x)) (h' : ∀ x, w = .insn x → NameLike (nm' x)) (ht : Told v) (ht' : Told w)
    (e : tok nm v p = tok nm' w p') : VAlike nm nm' v w :=
  val_inj h h' ht ht' (cut (D := fun c => decide (c = '[')) (val_free h).2 (val_free h').2 (pos_stop p) (pos_stop p') e).1

end Verif.Show
