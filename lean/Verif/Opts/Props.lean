import Verif.Spec.Opts
/-!
# C43: option strings
-/
namespace Verif.Opts
open Verif

/-! ## Splitting -/

theorem mem_takeWhile {p : Char → Bool} {l : Str} : ∀ c ∈ l.takeWhile p, p c = true := by
  induction l with
  | nil => intro c h; simp at h
  | cons x xs ih =>
    intro c h
    rw [List.takeWhile_cons] at h
    split at h
    · rename_i hx
      rcases List.mem_cons.1 h with rfl | h
      · exact hx
      · exact ih c h
    · simp at h

theorem dropWhile_stop {p : Char → Bool} {l : Str} {d : Char} (hd : d ∈ l) (hp : p d = false) :
    ∃ c t, l.dropWhile p = c :: t ∧ p c = false := by
  induction l with
  | nil => simp at hd
  | cons x xs ih =>
    rw [List.dropWhile_cons]
    by_cases hx : p x = true
    · rw [if_pos hx]
      rcases List.mem_cons.1 hd with rfl | h
      · rw [hp] at hx; cases hx
      · exact ih h
    · rw [if_neg hx]; exact ⟨x, xs, rfl, by simpa using hx⟩

theorem takeWhile_append_stop {p : Char → Bool} {o : Str} {c : Char} {s : Str} (h : ∀ x ∈ o, p x = true) (hc : p c = false) :
    (o ++ c :: s).takeWhile p = o ∧ (o ++ c :: s).dropWhile p = c :: s := by
  induction o with
  | nil => simp [hc]
  | cons x xs ih =>
    have hx := h x (by simp)
    have := ih fun y hy => h y (by simp [hy])
    simp [hx, this]

theorem takeWhile_all {p : Char → Bool} {o : Str} (h : ∀ x ∈ o, p x = true) : o.takeWhile p = o ∧ o.dropWhile p = [] := by
  induction o with
  | nil => simp
  | cons x xs ih =>
    have hx := h x (by simp)
    have := ih fun y hy => h y (by simp [hy])
    simp [hx, this]

theorem ne_of_not_mem {o : Str} {d : Char} (h : d ∉ o) : ∀ x ∈ o, (x != d) = true := fun x hx => by
  simp only [bne_iff_ne, ne_eq]; intro e; exact h (by rw [← e]; exact hx)

theorem split_char {d : Char} {s : Str} (h : d ∈ s) : ∃ a b, s = a ++ d :: b ∧ d ∉ a := by
  refine ⟨s.takeWhile (· != d), (s.dropWhile (· != d)).tail, ?_, ?_⟩
  · have h1 := List.takeWhile_append_dropWhile (p := (· != d)) (l := s)
    obtain ⟨c, t, e1, e2⟩ := dropWhile_stop (p := (· != d)) h (by simp)
    simp only [bne_eq_false_iff_eq] at e2
    subst e2
    rw [e1] at h1 ⊢
    exact h1.symm
  · intro hm
    have := mem_takeWhile _ hm
    simp at this

/-- Every string is a list of options. -/
theorem listed_exists (d : Char) : ∀ (n : Nat) (s : Str), s.length ≤ n → ∃ l, Listed d s l
  | _, [], _ => ⟨[], .nil⟩
  | 0, _ :: _, h => by simp at h
  | n + 1, c :: cs, h => by
    by_cases hc : d ∈ c :: cs
    · obtain ⟨a, b, e, hn⟩ := split_char hc
      have hl : b.length ≤ n := by
        have : (c :: cs).length = a.length + (b.length + 1) := by rw [e]; simp
        simp only [List.length_cons] at this h; omega
      obtain ⟨l, hl⟩ := listed_exists d n b hl
      exact ⟨a :: l, by rw [e]; exact .cons a b l hn hl⟩
    · exact ⟨[c :: cs], .last _ (by simp) hc⟩

/-- The loop handles exactly the listed options, in order, and stops at the first error, if they fit in the buffer. -/
theorem C43_list_partial {ε : Type} (d : Char) (n : Nat) (apply : ε → Str → Out (Int × ε)) {s : Str} {l : List Str} (h : Listed d s l)
    (hlen : ∀ o ∈ l, o.length < n) : ∀ (k : Nat) (e : ε), s.length ≤ k → loop d n apply k e s = seqOpts apply e l := by
  induction h with
  | nil => intro k e _; cases k <;> rfl
  | last o hne hc =>
    intro k e hk
    cases o with
    | nil => exact absurd rfl hne
    | cons c cs =>
      cases k with
      | zero => simp at hk
      | succ k =>
        have ht := takeWhile_all (ne_of_not_mem hc)
        have hl : ¬ n ≤ (c :: cs).length := by have := hlen (c :: cs) (by simp); omega
        simp only [loop, seqOpts, getOpt, ht.1, ht.2, if_neg hl]
        show (apply e (c :: cs)).bind _ = (apply e (c :: cs)).bind _
        congr 1
  | cons o s l hc hs ih =>
    intro k e hk
    have ht := takeWhile_append_stop (p := (· != d)) (o := o) (c := d) (s := s) (ne_of_not_mem hc) (by simp)
    have hl : ¬ n ≤ o.length := by have := hlen o (by simp); omega
    cases k with
    | zero => simp at hk
    | succ k =>
      have hcons : ∃ c cs, o ++ d :: s = c :: cs := by cases o <;> simp
      obtain ⟨c, cs, e1⟩ := hcons
      have hls : s.length ≤ k := by simp at hk; omega
      rw [e1] at ht ⊢
      simp only [loop, seqOpts, getOpt, ht.1, ht.2, if_neg hl]
      show (apply e o).bind _ = (apply e o).bind _
      congr 1
      funext r
      split
      · rfl
      · exact ih (fun q hq => hlen q (by simp [hq])) k r.2 hls

/-- An option that does not fit is written behind the buffer. -/
theorem C43_buffer_violated {ε : Type} (d : Char) (n : Nat) (apply : ε → Str → Out (Int × ε)) (e : ε) (o : Str) (hc : d ∉ o)
    (hn : 0 < n) (h : n ≤ o.length) : loop d n apply o.length e o = .ub := by
  cases o with
  | nil => simp at h; omega
  | cons c cs =>
    have ht := takeWhile_all (ne_of_not_mem hc)
    simp only [List.length_cons, loop, getOpt, ht.1]
    rw [if_pos (by simpa using h)]
    rfl

/-! ## Numbers -/

theorem not_space_of_digit {c : Char} (h : c.isDigit = true) : isSpace c = false := by
  simp only [Char.isDigit, Bool.and_eq_true, decide_eq_true_eq] at h
  have key : ∀ d : Char, d.val < 48 → c ≠ d := by
    intro d hd e
    subst e
    exact absurd h.1 (by simpa using hd)
  simp only [isSpace, Bool.or_eq_false_iff, decide_eq_false_iff_not]
  refine ⟨⟨⟨⟨⟨?_, ?_⟩, ?_⟩, ?_⟩, ?_⟩, ?_⟩ <;> exact key _ (by decide)

def clamp (v : Int) : Int := max (-2 ^ 63) (min (2 ^ 63 - 1) v)

theorem strtol_numeral {t : Str} {v : Int} (h : Numeral t v) : strtol t = (clamp v, []) := by
  have hd : ∀ {ds : Str}, ds ≠ [] → (∀ c ∈ ds, c.isDigit = true) → ∃ c cs, ds = c :: cs ∧ c.isDigit = true := by
    intro ds h1 h2
    cases ds with
    | nil => exact absurd rfl h1
    | cons c cs => exact ⟨c, cs, rfl, h2 c (by simp)⟩
  cases h with
  | pos ws ds hw hne hds =>
    obtain ⟨c, cs, rfl, hc⟩ := hd hne hds
    have h1 := (takeWhile_append_stop (p := isSpace) (s := cs) hw (not_space_of_digit hc)).2
    have hm : c ≠ '-' := by rintro rfl; exact absurd hc (by decide)
    have hp : c ≠ '+' := by rintro rfl; exact absurd hc (by decide)
    have ht := takeWhile_all (p := Char.isDigit) hds
    have hs : sign (c :: cs) = (false, c :: cs) := by
      unfold sign
      split
      · rename_i e; cases e; exact absurd rfl hm
      · rename_i e; cases e; exact absurd rfl hp
      · rfl
    unfold strtol
    rw [h1, hs]
    simp only [ht.1, ht.2, if_neg hne]
    rfl
  | plus ws ds hw hne hds =>
    have h1 := (takeWhile_append_stop (p := isSpace) (s := ds) hw (by decide : isSpace '+' = false)).2
    have ht := takeWhile_all (p := Char.isDigit) hds
    unfold strtol
    rw [h1]
    simp only [sign, ht.1, ht.2, if_neg hne]
    rfl
  | minus ws ds hw hne hds =>
    have h1 := (takeWhile_append_stop (p := isSpace) (s := ds) hw (by decide : isSpace '-' = false)).2
    have ht := takeWhile_all (p := Char.isDigit) hds
    unfold strtol
    rw [h1]
    simp only [sign, ht.1, ht.2, if_neg hne]
    rfl

theorem strtol_conv {t : Str} {w : Int} (h : strtol t = (w, [])) : t = [] ∧ w = 0 ∨ ∃ v, Numeral t v ∧ w = clamp v := by
  have hsp : t = t.takeWhile isSpace ++ t.dropWhile isSpace := List.takeWhile_append_dropWhile.symm
  unfold strtol at h
  revert h
  generalize t.dropWhile isSpace = u at hsp ⊢
  have hw : ∀ c ∈ t.takeWhile isSpace, isSpace c = true := mem_takeWhile
  generalize t.takeWhile isSpace = ws at hsp hw ⊢
  dsimp only
  intro h
  split at h
  · cases h; exact .inl ⟨rfl, rfl⟩
  · rename_i hne
    simp only [Prod.mk.injEq] at h
    obtain ⟨h1, h2⟩ := h
    have hx : (sign u).2.takeWhile Char.isDigit = (sign u).2 := by
      have := List.takeWhile_append_dropWhile (p := Char.isDigit) (l := (sign u).2)
      rw [h2, List.append_nil] at this; exact this
    have hds : ∀ c ∈ (sign u).2, c.isDigit = true := by rw [← hx]; exact mem_takeWhile
    rw [hx] at h1 hne
    refine .inr ?_
    revert h1 hne hds
    unfold sign
    split <;> intro hne h1 hds
    · exact ⟨_, by rw [hsp]; exact .minus ws _ hw hne hds, h1.symm⟩
    · exact ⟨_, by rw [hsp]; exact .plus ws _ hw hne hds, h1.symm⟩
    · exact ⟨_, by rw [hsp]; exact .pos ws _ hw hne hds, h1.symm⟩

theorem toInt32_clamp {v : Int} (h1 : -2 ^ 31 ≤ v) (h2 : v < 2 ^ 31) : toInt32 (clamp v) = v := by
  have : clamp v = v := by unfold clamp; omega
  rw [this]
  unfold toInt32
  rw [BitVec.toInt_ofInt]
  apply Int.bmod_eq_of_le <;> omega

/-- Numerals of the range of an `int` are read correctly. -/
theorem C43_parse_int {t : Str} {v : Int} (h : Numeral t v) (h1 : -2 ^ 31 ≤ v) (h2 : v < 2 ^ 31) : parseInt t = (0, v) := by
  unfold parseInt
  rw [strtol_numeral h]
  simp [toInt32_clamp h1 h2]

/-- What is accepted is a numeral or empty. -/
theorem parseInt_conv {t : Str} (h : (parseInt t).1 = 0) : t = [] ∨ ∃ v, Numeral t v ∧ (parseInt t).2 = toInt32 (clamp v) := by
  unfold parseInt at h ⊢
  dsimp only at h ⊢
  have h2 : (strtol t).2 = [] := by
    apply Classical.byContradiction
    intro hc; rw [if_pos hc] at h; cases h
  have : strtol t = ((strtol t).1, []) := by rw [← h2]
  rcases strtol_conv this with ⟨e, _⟩ | ⟨v, hv, e⟩
  · exact .inl e
  · exact .inr ⟨v, hv, by rw [e]⟩

/-! ## Global options -/

theorem applyGlobal_flag {s : Str} {f : GOpts → GOpts} (h : (s, f) ∈ flags) (o : GOpts) : applyGlobal o s = (0, f o) := by
  unfold flags at h
  simp only [List.mem_cons, Prod.mk.injEq, List.not_mem_nil, or_false] at h
  rcases h with h | h | h | h | h | h | h | h | h | h | h <;> (obtain ⟨rfl, rfl⟩ := h; rfl)

theorem number_ok {t : Str} {v lo hi : Int} (h : Numeral t v) (h1 : lo ≤ v) (h2 : v ≤ hi) (hl : -2 ^ 31 ≤ lo) (hh : hi < 2 ^ 31)
    (o : GOpts) (set : Int → GOpts) : number t lo hi o set = (0, set v) := by
  unfold number
  rw [C43_parse_int h (by omega) (by omega)]
  simp only [ne_eq, not_true, if_false]
  rw [if_neg (by omega)]

/-- The tests of `applyGlobal` for flags fail for strings that begin with the name of a number option. -/
theorem applyGlobal_num (o : GOpts) (t : Str) :
    applyGlobal o ("verbose=".toList ++ t) = number t 0 10 o (fun v => { o with verbose := v }) ∧
    applyGlobal o ("maxinsns=".toList ++ t) = number t 1 2147483647 o (fun v => { o with maxInsns := v }) ∧
    applyGlobal o ("maxit=".toList ++ t) = number t 1 15 o (fun v => { o with maxIt := v }) := by
  refine ⟨?_, ?_, ?_⟩ <;> (unfold applyGlobal; simp)

/-- A well-formed option sets what it says and nothing else. -/
theorem C43_global {s : Str} {f : GOpts → GOpts} (h : Means s f) (o : GOpts) : applyGlobal o s = (0, f o) := by
  cases h with
  | flag _ _ hm => exact applyGlobal_flag hm o
  | num n t lo hi v f hm hn h1 h2 =>
    have ha := applyGlobal_num o t
    unfold nums at hm
    simp only [List.mem_cons, Prod.mk.injEq, List.not_mem_nil, or_false] at hm
    rcases hm with ⟨rfl, rfl, rfl, rfl⟩ | ⟨rfl, rfl, rfl, rfl⟩ | ⟨rfl, rfl, rfl, rfl⟩
    · rw [ha.1, number_ok hn h1 h2 (by decide) (by decide)]
    · rw [ha.2.1, number_ok hn h1 h2 (by decide) (by decide)]
    · rw [ha.2.2, number_ok hn h1 h2 (by decide) (by decide)]

/-- A number option without digits or with a number that is not an `int`. -/
def Sloppy (s : Str) : Prop :=
  ∃ n lo hi f t, (n, lo, hi, f) ∈ nums ∧ s = n ++ t ∧ (t = [] ∨ ∃ v, Numeral t v ∧ (v < -2 ^ 31 ∨ 2 ^ 31 ≤ v))

theorem number_conv {t : Str} {lo hi : Int} {o : GOpts} {set : Int → GOpts} :
    ((number t lo hi o set).1 < 0 ∧ (number t lo hi o set).2 = o) ∨
    ((number t lo hi o set).1 = 0 ∧ ((∃ v, Numeral t v ∧ lo ≤ v ∧ v ≤ hi ∧ (number t lo hi o set).2 = set v) ∨
      t = [] ∨ ∃ v, Numeral t v ∧ (v < -2 ^ 31 ∨ 2 ^ 31 ≤ v))) := by
  unfold number
  dsimp only
  by_cases h : (parseInt t).1 ≠ 0
  · rw [if_pos h]
    refine .inl ⟨?_, rfl⟩
    unfold parseInt at h ⊢
    dsimp only at h ⊢
    by_cases hc : (strtol t).2 ≠ []
    · rw [if_pos hc]; decide
    · rw [if_neg hc] at h; exact absurd rfl h
  · rw [if_neg h]
    have h := Classical.not_not.1 h
    by_cases hr : (parseInt t).2 < lo ∨ hi < (parseInt t).2
    · rw [if_pos hr]; exact .inl ⟨by simp, rfl⟩
    · rw [if_neg hr]
      refine .inr ⟨rfl, ?_⟩
      rcases parseInt_conv h with e | ⟨v, hv, e⟩
      · exact .inr (.inl e)
      · by_cases hb : v < -2 ^ 31 ∨ 2 ^ 31 ≤ v
        · exact .inr (.inr ⟨v, hv, hb⟩)
        · rw [toInt32_clamp (by omega) (by omega)] at e
          refine .inl ⟨v, hv, by omega, by omega, by rw [e]⟩

/-- Everything else is rejected with a negative error and changes nothing, except the cases `Sloppy`. -/
theorem C43_global_only_partial (o : GOpts) (s : Str) :
    ((applyGlobal o s).1 < 0 ∧ (applyGlobal o s).2 = o) ∨
    ((applyGlobal o s).1 = 0 ∧ ((∃ f, Means s f ∧ (applyGlobal o s).2 = f o) ∨ Sloppy s)) := by
  have hnum : ∀ (n : Str) (lo hi : Int) (f : Int → GOpts → GOpts) (t : Str), (n, lo, hi, f) ∈ nums → s = n ++ t →
      applyGlobal o s = number t lo hi o (fun v => f v o) →
      ((applyGlobal o s).1 < 0 ∧ (applyGlobal o s).2 = o) ∨
      ((applyGlobal o s).1 = 0 ∧ ((∃ f, Means s f ∧ (applyGlobal o s).2 = f o) ∨ Sloppy s)) := by
    intro n lo hi f t hm hs he
    rw [he]
    rcases number_conv (t := t) (lo := lo) (hi := hi) (o := o) (set := fun v => f v o) with h | ⟨h1, ⟨v, hv, a, b, c⟩ | h | h⟩
    · exact .inl h
    · exact .inr ⟨h1, .inl ⟨f v, by rw [hs]; exact .num n t lo hi v f hm hv a b, c⟩⟩
    · exact .inr ⟨h1, .inr ⟨n, lo, hi, f, t, hm, hs, .inl h⟩⟩
    · exact .inr ⟨h1, .inr ⟨n, lo, hi, f, t, hm, hs, .inr h⟩⟩
  by_cases hf : ∃ f, (s, f) ∈ flags
  · obtain ⟨f, hf⟩ := hf
    rw [applyGlobal_flag hf]
    exact .inr ⟨rfl, .inl ⟨f, .flag s f hf, rfl⟩⟩
  · have hne : ∀ p ∈ flags, s ≠ p.1 := fun p hp e => hf ⟨p.2, by rw [e]; exact hp⟩
    have htake : ∀ (n : Str), s.take n.length = n → s = n ++ s.drop n.length := by
      intro n h
      conv => lhs; rw [← List.take_append_drop n.length s, h]
    by_cases h1 : s.take 8 = "verbose=".toList
    · have e := htake "verbose=".toList h1
      exact hnum "verbose=".toList 0 10 (fun v o => { o with verbose := v }) (s.drop 8) (by simp [nums]) e (by rw [e]; exact (applyGlobal_num o _).1)
    by_cases h2 : s.take 9 = "maxinsns=".toList
    · have e := htake "maxinsns=".toList h2
      exact hnum "maxinsns=".toList 1 2147483647 (fun v o => { o with maxInsns := v }) (s.drop 9) (by simp [nums]) e (by rw [e]; exact (applyGlobal_num o _).2.1)
    by_cases h3 : s.take 6 = "maxit=".toList
    · have e := htake "maxit=".toList h3
      exact hnum "maxit=".toList 1 15 (fun v o => { o with maxIt := v }) (s.drop 6) (by simp [nums]) e (by rw [e]; exact (applyGlobal_num o _).2.2)
    · have : applyGlobal o s = (-22, o) := by
        unfold applyGlobal
        have hne' : ∀ n ∈ flags.map Prod.fst, s ≠ n := fun n hn => by
          obtain ⟨p, hp, e⟩ := List.mem_map.1 hn
          rw [← e]; exact hne p hp
        rw [if_neg (hne' _ (by decide)), if_neg (hne' _ (by decide)), if_neg (hne' _ (by decide)), if_neg (hne' _ (by decide)),
          if_neg (hne' _ (by decide)), if_neg (hne' _ (by decide)), if_neg (hne' _ (by decide)), if_neg (hne' _ (by decide)),
          if_neg (hne' _ (by decide)), if_neg (hne' _ (by decide)), if_neg (hne' _ (by decide)), if_neg h1, if_neg h2, if_neg h3]
      rw [this]
      exact .inl ⟨by simp, rfl⟩

/-! ## Pass options -/

theorem loadParam_spec {load : Option Loader} {par : Option Str} {old : Option Param} {r : Except Int (Option Param)}
    (h : loadParam load par = .ok r) :
    match r with
    | .ok v => Loads load par old (.ok (v.or old))
    | .error e => Loads load par old (.error e) := by
  cases load with
  | none => cases h; exact .nothing (.inl rfl)
  | some f =>
    cases par with
    | none => cases h; exact .nothing (.inr rfl)
    | some p =>
      simp only [loadParam] at h
      cases hx : f p with
      | ok x =>
        rw [hx] at h
        cases x with
        | error e => cases h; exact .fails f p e rfl rfl hx
        | ok v => cases h; exact .value f p v rfl rfl hx
      | err => rw [hx] at h; cases h
      | crit => rw [hx] at h; cases h
      | ub => rw [hx] at h; cases h

theorem applyBuiltin_none {name : Str} {par : Option Str} : ∀ {bs : List Builtin}, applyBuiltin name par bs = .ok none →
    ∀ x ∈ bs, x.name ≠ name
  | [], _, x, hx => by simp at hx
  | b :: bs, h, x, hx => by
    simp only [applyBuiltin] at h
    split at h
    · split at h <;> cases h
    · rename_i hne
      split at h
      · cases h
      · rcases List.mem_cons.1 hx with rfl | hx
        · exact hne
        · exact applyBuiltin_none h x hx

theorem applyBuiltin_some {name : Str} {par : Option Str} : ∀ {bs : List Builtin} {r : Int} {bs' : List Builtin},
    applyBuiltin name par bs = .ok (some (r, bs')) →
    ∃ b xs ys, bs = xs ++ b :: ys ∧ (∀ x ∈ xs, x.name ≠ name) ∧ b.name = name ∧
      ((∃ p, Loads b.load par b.param (.ok p) ∧ r = 0 ∧ bs' = xs ++ { b with param := p, enableCfg := true, enable := false } :: ys) ∨
       (Loads b.load par b.param (.error r) ∧ bs' = bs))
  | [], _, _, h => by simp [applyBuiltin] at h
  | b :: bs, r, bs', h => by
    simp only [applyBuiltin] at h
    split at h
    · rename_i hb
      refine ⟨b, [], bs, rfl, by simp, hb, ?_⟩
      split at h
      · rename_i e he; cases h; exact .inr ⟨loadParam_spec he, rfl⟩
      · rename_i v hv; cases h; exact .inl ⟨_, loadParam_spec hv, rfl, rfl⟩
      all_goals cases h
    · rename_i hne
      split at h
      · rename_i r' bs'' hr
        cases h
        obtain ⟨b', xs, ys, e, hx, hb, h⟩ := applyBuiltin_some hr
        refine ⟨b', b :: xs, ys, by rw [e]; rfl, fun x hx' => ?_, hb, ?_⟩
        · rcases List.mem_cons.1 hx' with rfl | hx'
          · exact hne
          · exact hx x hx'
        · rcases h with ⟨p, a, b, c⟩ | ⟨a, b⟩
          · exact .inl ⟨p, a, b, by rw [c]; rfl⟩
          · exact .inr ⟨a, by rw [b]⟩
      · rename_i hn; exact absurd h (hn _ _)

theorem applyCustom_none {name : Str} {par : Option Str} : ∀ {bs : List Custom}, applyCustom name par bs = .ok none →
    ∀ x ∈ bs, x.name ≠ name
  | [], _, x, hx => by simp at hx
  | b :: bs, h, x, hx => by
    simp only [applyCustom] at h
    split at h
    · split at h <;> cases h
    · rename_i hne
      split at h
      · cases h
      · rcases List.mem_cons.1 hx with rfl | hx
        · exact hne
        · exact applyCustom_none h x hx

theorem applyCustom_some {name : Str} {par : Option Str} : ∀ {bs : List Custom} {r : Int} {bs' : List Custom},
    applyCustom name par bs = .ok (some (r, bs')) →
    ∃ b xs ys, bs = xs ++ b :: ys ∧ (∀ x ∈ xs, x.name ≠ name) ∧ b.name = name ∧
      ((∃ p, Loads b.load par b.param (.ok p) ∧ r = 0 ∧ bs' = xs ++ { b with param := p, enabled := true } :: ys) ∨
       (Loads b.load par b.param (.error r) ∧ bs' = bs))
  | [], _, _, h => by simp [applyCustom] at h
  | b :: bs, r, bs', h => by
    simp only [applyCustom] at h
    split at h
    · rename_i hb
      refine ⟨b, [], bs, rfl, by simp, hb, ?_⟩
      split at h
      · rename_i e he; cases h; exact .inr ⟨loadParam_spec he, rfl⟩
      · rename_i v hv; cases h; exact .inl ⟨_, loadParam_spec hv, rfl, rfl⟩
      all_goals cases h
    · rename_i hne
      split at h
      · rename_i r' bs'' hr
        cases h
        obtain ⟨b', xs, ys, e, hx, hb, h⟩ := applyCustom_some hr
        refine ⟨b', b :: xs, ys, by rw [e]; rfl, fun x hx' => ?_, hb, ?_⟩
        · rcases List.mem_cons.1 hx' with rfl | hx'
          · exact hne
          · exact hx x hx'
        · rcases h with ⟨p, a, b, c⟩ | ⟨a, b⟩
          · exact .inl ⟨p, a, b, by rw [c]; rfl⟩
          · exact .inr ⟨a, by rw [b]⟩
      · rename_i hn; exact absurd h (hn _ _)

/-- The scanner inside the parentheses. -/
theorem scan_inside {name : Str} : ∀ {p q rest : Str}, ')' ∉ q → p.length + q.length < 64 →
    scan name (some p) (q ++ ')' :: rest) = .ok (some (name, some (p ++ q), true))
  | p, [], rest, _, hl => by
    simp only [List.nil_append, scan, Option.getD_some, List.append_nil, if_true]
    rw [if_neg (by simp at hl; omega)]
  | p, c :: q, rest, hc, hl => by
    have hc' : c ≠ ')' := fun e => hc (by simp [e])
    simp only [List.cons_append, scan, Option.getD_some, if_neg hc']
    simp only [List.length_cons] at hl
    rw [if_neg (by omega)]
    rw [scan_inside (fun h => hc (by simp [h])) (by simp; omega)]
    simp

theorem scan_open {name : Str} : ∀ {p q : Str}, ')' ∉ q →
    scan name (some p) q = .ok none ∨ ∃ p', scan name (some p) q = .ok (some (name, some p', false))
  | p, [], _ => .inr ⟨p, rfl⟩
  | p, c :: q, hc => by
    have hc' : c ≠ ')' := fun e => hc (by simp [e])
    simp only [scan, Option.getD_some, if_neg hc']
    split
    · exact .inl rfl
    · exact scan_open fun h => hc (by simp [h])

theorem scan_plain : ∀ {name q : Str}, '(' ∉ q → name.length + q.length ≤ 32 → scan name none q = .ok (some (name ++ q, none, false))
  | name, [], _, _ => by simp [scan]
  | name, c :: q, hc, hl => by
    have hc' : c ≠ '(' := fun e => hc (by simp [e])
    simp only [List.length_cons] at hl
    simp only [scan, Option.getD_none, List.length_nil, if_neg hc']
    rw [if_neg (by omega), if_neg (by omega), scan_plain (fun h => hc (by simp [h])) (by simp; omega)]
    simp

theorem scan_before : ∀ {name q rest : Str}, '(' ∉ q → name.length + q.length ≤ 32 →
    scan name none (q ++ '(' :: rest) = scan (name ++ q) (some []) rest
  | name, [], rest, _, _ => by simp [scan]
  | name, c :: q, rest, hc, hl => by
    have hc' : c ≠ '(' := fun e => hc (by simp [e])
    simp only [List.length_cons] at hl
    simp only [List.cons_append, scan, Option.getD_none, List.length_nil, if_neg hc']
    rw [if_neg (by omega), if_neg (by omega), scan_before (fun h => hc (by simp [h])) (by simp; omega)]
    simp

theorem scan_parsed {s name : Str} {par : Option Str} (h : Parsed s name par) (hs : s.length < 64) (hn : name.length < 32) :
    scan [] none s = .ok (some (name, par, par.isSome)) := by
  cases h with
  | plain _ hp => rw [scan_plain hp (by simp; omega)]; rfl
  | param _ p rest h1 h2 =>
    rw [scan_before h1 (by simp; omega), List.nil_append]
    simp only [List.length_append, List.length_cons] at hs
    rw [scan_inside h2 (by simp; omega)]
    rfl

/-- What an option of the right form does: exactly the effect that it names. -/
theorem C43_pass {e : Env} {s name : Str} {par : Option Str} (h : Parsed s name par) (hs : s.length < 64) (hn : name.length < 32)
    {r : Int} {e' : Env} (hr : applyPass e s = .ok (r, e')) : Effect e name par r e' := by
  unfold applyPass at hr
  rw [scan_parsed h hs hn] at hr
  simp only [Out.ok_bind] at hr
  rw [if_neg (by cases par <;> simp), if_neg (by omega)] at hr
  obtain ⟨o, ho, hr⟩ := Out.bind_eq_ok.1 hr
  cases o with
  | some x =>
    obtain ⟨r', bs⟩ := x
    cases hr
    obtain ⟨b, xs, ys, e1, hx, hb, ⟨p, hp, rfl, rfl⟩ | ⟨hp, rfl⟩⟩ := applyBuiltin_some ho
    · exact .builtin b xs ys p e1 hx hb hp
    · exact .builtinErr b xs ys _ e1 hx hb hp
  | none =>
    have hn := applyBuiltin_none ho
    obtain ⟨o, ho, hr⟩ := Out.bind_eq_ok.1 hr
    cases o with
    | some x =>
      obtain ⟨r', bs⟩ := x
      cases hr
      obtain ⟨b, xs, ys, e1, hx, hb, ⟨p, hp, rfl, rfl⟩ | ⟨hp, rfl⟩⟩ := applyCustom_some ho
      · exact .custom b xs ys p hn e1 hx hb hp
      · exact .customErr b xs ys _ hn e1 hx hb hp
    | none =>
      cases hr
      exact .unknown hn (applyCustom_none ho)

/-- An option that is not of this form is an error and changes nothing. -/
theorem C43_malformed {e : Env} {s : Str} (h : ∀ name par, ¬ Parsed s name par)
    (hn : (s.takeWhile (· != '(')).length < 32) : applyPass e s = .ok (-22, e) := by
  have hm : '(' ∈ s := Classical.byContradiction fun hc => h s none (.plain s hc)
  obtain ⟨a, b, rfl, ha⟩ := split_char hm
  have hb : ')' ∉ b := by
    intro hb
    obtain ⟨p, rest, rfl, hp⟩ := split_char hb
    exact h a (some p) (.param a p rest ha hp)
  rw [(takeWhile_append_stop (p := (· != '(')) (ne_of_not_mem ha) (by simp)).1] at hn
  unfold applyPass
  rw [scan_before ha (by simp; omega)]
  rcases scan_open (name := [] ++ a) (p := []) hb with h1 | ⟨p', h1⟩
  · rw [h1]; rfl
  · rw [h1]; simp only [Out.ok_bind]; rw [if_pos (by simp)]

/-- Reading an option is the same as reading its global or its pass part; both lists are handled in order. -/
theorem C43_init_partial {e : Env} {g p : Str} {gs ps : List Str} (hg : Listed ',' g gs) (hp : Listed ',' p ps)
    (lg : ∀ o ∈ gs, o.length < 64) (lp : ∀ o ∈ ps, o.length < 64) :
    initOpts e (some g) (some p) = (do
      let r ← seqOpts (fun e s => let r := applyGlobal e.opts s; Out.ok (r.1, { e with opts := r.2 })) e gs
      if r.1 < 0 then .ok r else seqOpts applyPass r.2 ps) := by
  unfold initOpts
  simp only [Option.getD_some]
  rw [C43_list_partial ',' 64 _ hg lg _ _ (Nat.le_refl _)]
  congr 1
  funext r
  split
  · rfl
  · exact C43_list_partial ',' 64 _ hp lp _ _ (Nat.le_refl _)

/-! ## Memory -/

/-- All sub-options are shorter than the buffer for them. -/
def Short (p : Str) : Prop := ∀ l, Listed ' ' p l → ∀ o ∈ l, o.length < 30

/-- Parameter loaders that write only to their buffers if the sub-options are short. -/
def Safe (l : Option Loader) : Prop := ∀ f, l = some f → ∀ p : Str, Short p → f p ≠ .ub

structure SafeEnv (e : Env) : Prop where
  builtin : ∀ b ∈ e.builtin, Safe b.load
  custom : ∀ b ∈ e.custom, Safe b.load

theorem seqOpts_safe {ε : Type} {apply : ε → Str → Out (Int × ε)} (h : ∀ e s, apply e s ≠ .ub) : ∀ (l : List Str) (e : ε),
    seqOpts apply e l ≠ .ub
  | [], e => by simp [seqOpts]
  | o :: os, e => by
    simp only [seqOpts]
    cases ha : apply e o with
    | ok r =>
      simp only [Out.ok_bind]
      split
      · simp
      · exact seqOpts_safe h os _
    | err => simp
    | crit => simp
    | ub => exact absurd ha (h e o)

theorem loop_short {ε : Type} (apply : ε → Str → Out (Int × ε)) (h : ∀ e s, apply e s ≠ .ub) {p : Str} (hp : Short p)
    (e : ε) : loop ' ' 30 apply p.length e p ≠ .ub := by
  obtain ⟨l, hL⟩ := listed_exists ' ' p.length p (Nat.le_refl _)
  rw [C43_list_partial ' ' 30 apply hL (hp l hL) _ _ (Nat.le_refl _)]
  exact seqOpts_safe h l e

/-- The loaders of the passes that have one keep to their buffers. -/
theorem C43_loaders_partial : Safe (some counterLoad) ∧ Safe (some optimLoad) := by
  refine ⟨?_, ?_⟩ <;> intro f hf p hp <;> cases hf
  · have := loop_short (fun st o => Out.ok (counterOpt st o)) (by simp) hp (1000000, false)
    unfold counterLoad
    revert this
    generalize loop ' ' 30 _ p.length _ p = x
    intro h
    cases x with
    | ok r => simp only [Out.ok_bind]; split; · simp
              · split <;> simp
    | err => simp
    | crit => simp
    | ub => exact absurd rfl h
  · have := loop_short (fun (st : Bool × Bool) o =>
      Out.ok (0, (st.1 || o == "no_dead_elim".toList, st.2 || o == "noopt".toList))) (by simp) hp (false, false)
    unfold optimLoad
    revert this
    generalize loop ' ' 30 _ p.length _ p = x
    intro h
    cases x with
    | ok r => simp
    | err => simp
    | crit => simp
    | ub => exact absurd rfl h

theorem loadParam_safe {l : Option Loader} {par : Option Str} (h : Safe l)
    (hp : ∀ p, par = some p → Short p) : loadParam l par ≠ .ub := by
  unfold loadParam
  split
  · rename_i f p
    have := h f rfl p (hp p rfl)
    split <;> simp_all
  · simp

theorem applyBuiltin_safe {name : Str} {par : Option Str} (hp : ∀ p, par = some p → Short p) :
    ∀ {bs : List Builtin}, (∀ b ∈ bs, Safe b.load) → applyBuiltin name par bs ≠ .ub
  | [], _ => by simp [applyBuiltin]
  | b :: bs, h => by
    have h1 := loadParam_safe (h b (by simp)) hp
    have h2 := applyBuiltin_safe (name := name) hp (bs := bs) fun x hx => h x (by simp [hx])
    simp only [applyBuiltin]
    split
    · split <;> simp_all
    · split
      · simp
      · exact h2

theorem applyCustom_safe {name : Str} {par : Option Str} (hp : ∀ p, par = some p → Short p) :
    ∀ {bs : List Custom}, (∀ b ∈ bs, Safe b.load) → applyCustom name par bs ≠ .ub
  | [], _ => by simp [applyCustom]
  | b :: bs, h => by
    have h1 := loadParam_safe (h b (by simp)) hp
    have h2 := applyCustom_safe (name := name) hp (bs := bs) fun x hx => h x (by simp [hx])
    simp only [applyCustom]
    split
    · split <;> simp_all
    · split
      · simp
      · exact h2

/-- A pass option that fits in the buffers. -/
structure Fits (o : Str) : Prop where
  option : o.length < 64
  name : (o.takeWhile (· != '(')).length < 32
  param : ∀ name p, Parsed o name (some p) → Short p

theorem applyPass_safe {e : Env} {s : Str} (he : SafeEnv e) (h : Fits s) : applyPass e s ≠ .ub := by
  by_cases hp : ∃ name par, Parsed s name par
  · obtain ⟨name, par, hp⟩ := hp
    have hn : name.length < 32 := by
      have := h.name
      cases hp with
      | plain _ hm => rwa [(takeWhile_all (ne_of_not_mem hm)).1] at this
      | param _ p rest h1 h2 => rwa [(takeWhile_append_stop (p := (· != '(')) (ne_of_not_mem h1) (by simp)).1] at this
    have hpar : ∀ p, par = some p → Short p := by
      rintro p rfl
      exact h.param _ _ hp
    have h1 := applyBuiltin_safe (name := name) hpar he.builtin
    have h2 := applyCustom_safe (name := name) hpar he.custom
    unfold applyPass
    rw [scan_parsed hp h.option hn]
    simp only [Out.ok_bind]
    rw [if_neg (by cases par <;> simp), if_neg (by omega)]
    revert h1 h2
    generalize applyBuiltin name par e.builtin = x
    generalize applyCustom name par e.custom = y
    intro h1 h2
    cases x with
    | ok o =>
      cases o with
      | some r => simp
      | none =>
        cases y with
        | ok o => cases o <;> simp
        | err => simp
        | crit => simp
        | ub => exact absurd rfl h2
    | err => simp
    | crit => simp
    | ub => exact absurd rfl h1
  · rw [C43_malformed (fun name par hc => hp ⟨name, par, hc⟩) h.name]; simp

theorem Effect.safe {e e' : Env} {name : Str} {par : Option Str} {r : Int} (h : Effect e name par r e') (he : SafeEnv e) : SafeEnv e' := by
  cases h with
  | builtin b xs ys p e1 _ _ _ =>
    refine ⟨fun x hx => ?_, he.custom⟩
    have hb : Safe b.load := he.builtin b (by rw [e1]; simp)
    simp only [List.mem_append, List.mem_cons] at hx
    rcases hx with hx | rfl | hx
    · exact he.builtin x (by rw [e1]; simp [hx])
    · exact hb
    · exact he.builtin x (by rw [e1]; simp [hx])
  | builtinErr => exact he
  | custom b xs ys p _ e1 _ _ _ =>
    refine ⟨he.builtin, fun x hx => ?_⟩
    have hb : Safe b.load := he.custom b (by rw [e1]; simp)
    simp only [List.mem_append, List.mem_cons] at hx
    rcases hx with hx | rfl | hx
    · exact he.custom x (by rw [e1]; simp [hx])
    · exact hb
    · exact he.custom x (by rw [e1]; simp [hx])
  | customErr => exact he
  | unknown => exact he

theorem applyPass_keeps {e e' : Env} {s : Str} {r : Int} (he : SafeEnv e) (h : Fits s) (hr : applyPass e s = .ok (r, e')) : SafeEnv e' := by
  by_cases hp : ∃ name par, Parsed s name par
  · obtain ⟨name, par, hp⟩ := hp
    have hn : name.length < 32 := by
      have := h.name
      cases hp with
      | plain _ hm => rwa [(takeWhile_all (ne_of_not_mem hm)).1] at this
      | param _ p rest h1 h2 => rwa [(takeWhile_append_stop (p := (· != '(')) (ne_of_not_mem h1) (by simp)).1] at this
    exact (C43_pass hp h.option hn hr).safe he
  · rw [C43_malformed (fun name par hc => hp ⟨name, par, hc⟩) h.name] at hr
    cases hr; exact he

theorem seqPass_safe : ∀ {ps : List Str} {e : Env}, SafeEnv e → (∀ o ∈ ps, Fits o) → seqOpts applyPass e ps ≠ .ub
  | [], _, _, _ => by simp [seqOpts]
  | o :: os, e, he, h => by
    have h1 := applyPass_safe he (h o (by simp))
    simp only [seqOpts]
    cases ha : applyPass e o with
    | ok r =>
      simp only [Out.ok_bind]
      split
      · simp
      · exact seqPass_safe (applyPass_keeps (r := r.1) he (h o (by simp)) ha) fun q hq => h q (by simp [hq])
    | err => simp
    | crit => simp
    | ub => exact absurd ha h1

/-- If options, names and parameters fit, nothing is written outside the buffers. -/
theorem C43_bounds_partial {e : Env} (he : SafeEnv e) {g p : Str} {gs ps : List Str} (hg : Listed ',' g gs) (hp : Listed ',' p ps)
    (lg : ∀ o ∈ gs, o.length < 64) (lp : ∀ o ∈ ps, Fits o) : initOpts e (some g) (some p) ≠ .ub := by
  rw [C43_init_partial hg hp lg fun o ho => (lp o ho).option]
  have h1 : ∀ (gs : List Str) (e : Env), SafeEnv e → ∃ r, seqOpts (fun (e : Env) s =>
      let r := applyGlobal e.opts s; Out.ok (r.1, { e with opts := r.2 })) e gs = .ok r ∧ SafeEnv r.2 := by
    intro gs
    induction gs with
    | nil => intro e he; exact ⟨_, rfl, he⟩
    | cons o os ih =>
      intro e he
      simp only [seqOpts, Out.ok_bind]
      split
      · exact ⟨_, rfl, ⟨he.builtin, he.custom⟩⟩
      · exact ih _ ⟨he.builtin, he.custom⟩
  obtain ⟨r, e1, e2⟩ := h1 gs e he
  rw [e1]
  simp only [Out.ok_bind]
  split
  · simp
  · exact seqPass_safe e2 lp

/-! ## Parameters -/

theorem seqOpts_snoc {ε : Type} {apply : ε → Str → Out (Int × ε)} : ∀ {l : List Str} {e e' : ε} {o : Str},
    seqOpts apply e l = .ok (0, e') → seqOpts apply e (l ++ [o]) =
      (do let r ← apply e' o; if r.1 < 0 then .ok r else .ok (0, r.2))
  | [], e, e', o, h => by cases h; rfl
  | q :: l, e, e', o, h => by
    simp only [seqOpts, List.cons_append] at h ⊢
    obtain ⟨r, h1, h2⟩ := Out.bind_eq_ok.1 h
    rw [h1, Out.ok_bind]
    by_cases hr : r.1 < 0
    · rw [if_pos hr] at h2; cases h2; simp at hr
    · rw [if_neg hr] at h2 ⊢; exact seqOpts_snoc h2

theorem counter_seq {l : List Str} {n : Int} {a : Bool} (h : CounterSays l n a) :
    seqOpts (fun st o => Out.ok (counterOpt st o)) (1000000, false) l = .ok (0, (n, a)) := by
  induction h with
  | nil => rfl
  | accurate l n a _ ih => rw [seqOpts_snoc ih]; simp [counterOpt]
  | limit l n a t v _ hv h1 h2 ih =>
    rw [seqOpts_snoc ih]
    have hne : ("limit=".toList ++ t) ≠ "accurate".toList := by intro e; simp at e
    have h3 : ("limit=".toList ++ t).take 6 = "limit=".toList := by simp
    have h4 : ("limit=".toList ++ t).drop 6 = t := by simp
    have hb : ("limit=".toList ++ t == "accurate".toList) = false := by rw [beq_eq_false_iff_ne]; exact hne
    simp only [counterOpt, Out.ok_bind, if_pos h3, h4, C43_parse_int hv h1 h2, hb, Bool.or_false]
    rfl
  | other l n a o _ h1 h2 ih =>
    rw [seqOpts_snoc ih]
    have h3 : o.take 6 ≠ "limit=".toList := fun e => h2 (o.drop 6) (by rw [← e, List.take_append_drop])
    have hb : (o == "accurate".toList) = false := by rw [beq_eq_false_iff_ne]; exact h1
    simp only [counterOpt, Out.ok_bind, if_neg h3, hb, Bool.or_false]
    rfl

/-- The parameter of the instruction counter is what its sub-options say; limits above a million are rejected. -/
theorem C43_counter {p : Str} {l : List Str} (h : Listed ' ' p l) (hl : ∀ o ∈ l, o.length < 30) {n : Int} {a : Bool}
    (hs : CounterSays l n a) : counterLoad p = .ok (if 1000000 < n then .error (-22) else .ok (.counter n a)) := by
  unfold counterLoad
  rw [C43_list_partial ' ' 30 _ h hl _ _ (Nat.le_refl _), counter_seq hs]
  simp only [Out.ok_bind, ne_eq, not_true, if_false]
  split <;> rfl

theorem optim_seq : ∀ {l : List Str} {e : Bool × Bool},
    seqOpts (fun (st : Bool × Bool) o => Out.ok (0, (st.1 || o == "no_dead_elim".toList, st.2 || o == "noopt".toList))) e l =
      .ok (0, (e.1 || l.contains "no_dead_elim".toList, e.2 || l.contains "noopt".toList))
  | [], e => by simp [seqOpts]
  | o :: l, e => by
    simp only [seqOpts, Out.ok_bind]
    rw [if_neg (by simp), optim_seq]
    have hc : ∀ w : Str, (o == w) = (w == o) := fun w => BEq.comm
    rw [hc, hc]
    simp only [List.contains_cons, Bool.or_assoc]

/-- The parameter of the optimisation pass: which of its two words are listed. -/
theorem C43_optim {p : Str} {l : List Str} (h : Listed ' ' p l) (hl : ∀ o ∈ l, o.length < 30) :
    optimLoad p = .ok (.ok (.optim (l.contains "no_dead_elim".toList) (l.contains "noopt".toList))) := by
  unfold optimLoad
  rw [C43_list_partial ' ' 30 _ h hl _ _ (Nat.le_refl _), optim_seq]
  simp

/-! ## Examples -/

/-- Three passes, two with a parameter. -/
def exEnv : Env :=
  { opts := {},
    builtin := [⟨"remove_trivial_phi".toList, none, none, true, true⟩],
    custom := [⟨"insn_counter".toList, some counterLoad, none, false⟩, ⟨"optimize_ir".toList, some optimLoad, none, false⟩] }

example : SafeEnv exEnv :=
  ⟨fun b hb => (by simp only [exEnv, List.mem_cons, List.not_mem_nil, or_false] at hb; subst hb; intro f hf; cases hf),
   fun b hb => by
    simp only [exEnv, List.mem_cons, List.not_mem_nil, or_false] at hb
    rcases hb with rfl | rfl
    · exact C43_loaders_partial.1
    · exact C43_loaders_partial.2⟩

example : Listed ',' "force,verbose=3".toList ["force".toList, "verbose=3".toList] :=
  .cons "force".toList "verbose=3".toList _ (by decide) (.last _ (by decide) (by decide))

example : Means "verbose=3".toList (fun o => { o with verbose := 3 }) :=
  .num "verbose=".toList "3".toList 0 10 3 (fun v o => { o with verbose := v }) (by simp [nums])
    (.pos [] "3".toList (by simp) (by decide) (by decide)) (by decide) (by decide)

theorem Listed.short {d : Char} {p : Str} {l : List Str} (h : Listed d p l) : ∀ o ∈ l, o.length ≤ p.length := by
  induction h with
  | nil => simp
  | last o _ _ => simp
  | cons o s l _ _ ih =>
    intro q hq
    rcases List.mem_cons.1 hq with rfl | hq
    · simp
    · have := ih q hq; simp; omega

example : Fits "insn_counter(limit=500)".toList :=
  ⟨by decide, by decide, fun name p h => by
    generalize hs : "insn_counter(limit=500)".toList = s at h
    generalize ho : some p = o at h
    cases h with
    | plain => cases ho
    | param _ q rest h1 h2 =>
      cases ho
      have h3 := congrArg List.length hs
      have h4 : ("insn_counter(limit=500)".toList).takeWhile (· != '(') = name := by
        rw [hs]; exact (takeWhile_append_stop (p := (· != '(')) (ne_of_not_mem h1) (by simp)).1
      have h5 : ("insn_counter(limit=500)".toList).takeWhile (· != '(') = "insn_counter".toList := by decide
      rw [h5] at h4
      subst h4
      simp at h3
      intro l hl o ho
      have := hl.short o ho
      omega⟩

/-- Result and options after reading two strings. -/
def readBack (r : Out (Int × Env)) : Option (Int × GOpts × List (Option Param × Bool)) :=
  match r with
  | .ok (r, e) => some (r, e.opts, e.custom.map fun c => (c.param, c.enabled))
  | _ => none

example : readBack (initOpts exEnv (some "force,verbose=3,maxit=4".toList) (some "insn_counter(limit=500 accurate)".toList)) =
    some (0, { ({} : GOpts) with force := true, verbose := 3, maxIt := 4 },
      [(some (.counter 500 true), true), (none, false)]) := by decide +kernel

def isUb {α : Type} : Out α → Bool
  | .ub => true
  | _ => false

/-- Overruns: an option of 64 characters, a pass name of 32 characters, a sub-option of 30 characters. -/
theorem C43_bounds_violated :
    isUb (initOpts exEnv (some (List.replicate 64 'a')) none) = true ∧
    isUb (initOpts exEnv none (some (List.replicate 32 'a'))) = true ∧
    isUb (initOpts exEnv none (some ("insn_counter(".toList ++ List.replicate 30 'a' ++ [')']))) = true := by
  refine ⟨?_, ?_, ?_⟩ <;> decide +kernel

/-- Numbers that are accepted although they are none or do not fit: `verbose=` sets 0, `maxinsns=4294967297` sets 1. -/
theorem C43_number_violated :
    readBack (initOpts exEnv (some "verbose=".toList) none) =
      some (0, { ({} : GOpts) with verbose := 0 }, [(none, false), (none, false)]) ∧
    readBack (initOpts exEnv (some "maxinsns=4294967297".toList) none) =
      some (0, { ({} : GOpts) with maxInsns := 1 }, [(none, false), (none, false)]) := by
  refine ⟨?_, ?_⟩ <;> decide +kernel

/-- Earlier options stay applied when a later one is rejected: the environment is not restored. -/
theorem C43_error_keeps :
    readBack (initOpts exEnv (some "force,nonsense".toList) none) =
      some (-22, { ({} : GOpts) with force := true }, [(none, false), (none, false)]) := by decide +kernel

end Verif.Opts
