import Verif.Drive.Model
/-!
# C42, C44, C45: pass manager, log, driver
-/
namespace Verif.Drive
open Verif

variable {σ : Type}

/-! ## C42 -/

/-- The pass has to run, with this parameter: the first entry of its name says so (or the pass cannot be switched
off), or there is no entry and it is on by default. -/
inductive Chosen (cfg : List Cfg) (p : Pass σ) : Option Nat → Prop
  | entry (before after : List Cfg) (c : Cfg) : cfg = before ++ c :: after → (∀ d ∈ before, d.name ≠ p.name) →
      c.name = p.name → p.force = true ∨ c.enable = true → Chosen cfg p c.param
  | default : (∀ d ∈ cfg, d.name ≠ p.name) → p.enabled = true → Chosen cfg p none

/-- One pass is run: if it sets an error the state is left as it is, else the work done after each pass follows. -/
inductive Ran (S : Sys σ) (p : Pass σ) (q : Option Nat) (s : σ) : σ → Prop
  | failed : S.err (p.act q s) = true → Ran S p q s (p.act q s)
  | ok : S.err (p.act q s) = false → Ran S p q s (S.post (p.act q s))

theorem ran_single (S : Sys σ) (p : Pass σ) (q : Option Nat) (s : σ) : Ran S p q s (runSingle S p q s) := by
  unfold runSingle
  dsimp only
  cases h : S.err (p.act q s) with
  | true => exact .failed h
  | false => exact .ok h

theorem Ran.unique {S : Sys σ} {p : Pass σ} {q : Option Nat} {s t u : σ} (h : Ran S p q s t) (k : Ran S p q s u) : t = u := by
  cases h with
  | failed h => cases k with
    | failed => rfl
    | ok k => rw [h] at k; cases k
  | ok h => cases k with
    | ok => rfl
    | failed k => rw [h] at k; cases k

/-- The passes of `ps` are run one after the other; those not chosen are left out; the run ends with the first pass
after which an error is set. -/
inductive InOrder (S : Sys σ) (cfg : List Cfg) : List (Pass σ) → σ → List (Pass σ × Option Nat) → σ → Prop
  | done (s : σ) : InOrder S cfg [] s [] s
  | skip (p : Pass σ) (ps : List (Pass σ)) (s s' : σ) (l : List (Pass σ × Option Nat)) : (∀ q, ¬ Chosen cfg p q) →
      InOrder S cfg ps s l s' → InOrder S cfg (p :: ps) s l s'
  | stop (p : Pass σ) (ps : List (Pass σ)) (q : Option Nat) (s t : σ) : Chosen cfg p q → Ran S p q s t → S.err t = true →
      InOrder S cfg (p :: ps) s [(p, q)] t
  | next (p : Pass σ) (ps : List (Pass σ)) (q : Option Nat) (s t s' : σ) (l : List (Pass σ × Option Nat)) : Chosen cfg p q →
      Ran S p q s t → S.err t = false → InOrder S cfg ps t l s' →
      InOrder S cfg (p :: ps) s ((p, q) :: l) s'

theorem Chosen.unique {cfg : List Cfg} {p : Pass σ} {q r : Option Nat} (h : Chosen cfg p q) (k : Chosen cfg p r) : q = r := by
  have find : ∀ (before after : List Cfg) (c : Cfg), cfg = before ++ c :: after → (∀ d ∈ before, d.name ≠ p.name) →
      c.name = p.name → cfg.find? (fun c => c.name == p.name) = some c := by
    intro before after c h1 h2 h3
    rw [h1, List.find?_append]
    have : before.find? (fun c => c.name == p.name) = none := by
      rw [List.find?_eq_none]
      intro d hd; simpa using h2 d hd
    rw [this]
    simp [h3]
  cases h with
  | entry b a c h1 h2 h3 h4 =>
    cases k with
    | entry b' a' c' k1 k2 k3 k4 =>
      have := (find b a c h1 h2 h3).symm.trans (find b' a' c' k1 k2 k3)
      cases this; rfl
    | default k1 k2 => exact absurd h3 (k1 c (by rw [h1]; simp))
  | default h1 h2 =>
    cases k with
    | entry b' a' c' k1 k2 k3 k4 => exact absurd k3 (h1 c' (by rw [k1]; simp))
    | default k1 k2 => rfl

theorem runOne_ok (S : Sys σ) (cfg : List Cfg) (p : Pass σ) (s : σ) :
    (∃ q, Chosen cfg p q ∧ runOne S cfg p s = ([(p, q)], runSingle S p q s)) ∨
    ((∀ q, ¬ Chosen cfg p q) ∧ runOne S cfg p s = ([], s)) := by
  unfold runOne
  cases h : cfg.find? (fun c => c.name == p.name) with
  | some c =>
    obtain ⟨hc, b, a, h1, h2⟩ := List.find?_eq_some_iff_append.1 h
    have hb : ∀ d ∈ b, d.name ≠ p.name := fun d hd => by simpa using h2 d hd
    have hc : c.name = p.name := by simpa using hc
    dsimp only
    split
    · rename_i he
      exact .inl ⟨_, .entry b a c h1 hb hc (by simpa using he), rfl⟩
    · rename_i he
      refine .inr ⟨fun q hq => ?_, rfl⟩
      cases hq with
      | entry b' a' c' k1 k2 k3 k4 =>
        have : cfg.find? (fun c => c.name == p.name) = some c' :=
          List.find?_eq_some_iff_append.2 ⟨by simpa using k3, b', a', k1, fun d hd => by simpa using k2 d hd⟩
        rw [h] at this; cases this
        exact he (by simpa using k4)
      | default k1 k2 => exact k1 c (by rw [h1]; simp) hc
  | none =>
    have hn : ∀ d ∈ cfg, d.name ≠ p.name := fun d hd => by simpa using List.find?_eq_none.1 h d hd
    dsimp only
    split
    · rename_i he; exact .inl ⟨none, .default hn he, rfl⟩
    · rename_i he
      refine .inr ⟨fun q hq => ?_, rfl⟩
      cases hq with
      | entry b' a' c' k1 k2 k3 k4 => exact hn c' (by rw [k1]; simp) k3
      | default k1 k2 => exact he k2

/-- `bpf_ir_run_passes` on any list of passes and any configuration. -/
theorem C42_passes (S : Sys σ) (cfg : List Cfg) : ∀ (ps : List (Pass σ)) (s : σ), S.err s = false →
    InOrder S cfg ps s (runPasses S cfg ps s).1 (runPasses S cfg ps s).2
  | [], s, _ => .done s
  | p :: ps, s, h => by
    unfold runPasses
    rcases runOne_ok S cfg p s with ⟨q, hq, e⟩ | ⟨hq, e⟩
    · rw [e]
      dsimp only
      cases he : S.err (runSingle S p q s) with
      | true => exact .stop _ _ _ _ _ hq (ran_single ..) he
      | false => exact .next _ _ _ _ _ _ _ hq (ran_single ..) he (C42_passes S cfg ps _ he)
    · rw [e]
      dsimp only
      rw [h]
      exact .skip _ _ _ _ _ hq (C42_passes S cfg ps s h)

/-- The outcome is determined. -/
theorem C42_unique (S : Sys σ) (cfg : List Cfg) {ps : List (Pass σ)} {s s1 s2 : σ} {l1 l2 : List (Pass σ × Option Nat)}
    (h1 : InOrder S cfg ps s l1 s1) (h2 : InOrder S cfg ps s l2 s2) : l1 = l2 ∧ s1 = s2 := by
  induction h1 generalizing l2 s2 with
  | done s => cases h2; exact ⟨rfl, rfl⟩
  | skip p ps s s' l hn _ ih =>
    cases h2 with
    | skip _ _ _ _ _ _ h => exact ih h
    | stop _ _ q _ _ hc _ _ => exact absurd hc (hn q)
    | next _ _ q _ _ _ _ hc _ _ _ => exact absurd hc (hn q)
  | stop p ps q s t hc hr he =>
    cases h2 with
    | skip _ _ _ _ _ hn h => exact absurd hc (hn q)
    | stop _ _ q' _ _ hc' hr' _ => cases hc.unique hc'; cases hr.unique hr'; exact ⟨rfl, rfl⟩
    | next _ _ q' _ _ _ _ hc' hr' he' _ => cases hc.unique hc'; cases hr.unique hr'; rw [he] at he'; cases he'
  | next p ps q s t s' l hc hr he _ ih =>
    cases h2 with
    | skip _ _ _ _ _ hn h => exact absurd hc (hn q)
    | stop _ _ q' _ _ hc' hr' he' => cases hc.unique hc'; cases hr.unique hr'; rw [he] at he'; cases he'
    | next _ _ q' _ _ _ _ hc' hr' he' h =>
      cases hc.unique hc'
      cases hr.unique hr'
      obtain ⟨e1, e2⟩ := ih h
      exact ⟨by rw [e1], e2⟩

/-- Custom passes: enabled ones, if their test of the verifier's error says so, in order, up to the first error. -/
inductive CustomOrder (S : Sys σ) (verr : Int) : List (Custom σ) → σ → List (Pass σ × Option Nat) → σ → Prop
  | done (s : σ) : CustomOrder S verr [] s [] s
  | skip (c : Custom σ) (cs : List (Custom σ)) (s s' : σ) (l : List (Pass σ × Option Nat)) :
      ¬ (c.pass.enabled = true ∧ ∀ f, c.check = some f → f verr = true) →
      CustomOrder S verr cs s l s' → CustomOrder S verr (c :: cs) s l s'
  | stop (c : Custom σ) (cs : List (Custom σ)) (s t : σ) :
      (c.pass.enabled = true ∧ ∀ f, c.check = some f → f verr = true) → Ran S c.pass c.param s t → S.err t = true →
      CustomOrder S verr (c :: cs) s [(c.pass, c.param)] t
  | next (c : Custom σ) (cs : List (Custom σ)) (s t s' : σ) (l : List (Pass σ × Option Nat)) :
      (c.pass.enabled = true ∧ ∀ f, c.check = some f → f verr = true) → Ran S c.pass c.param s t → S.err t = false →
      CustomOrder S verr cs t l s' →
      CustomOrder S verr (c :: cs) s ((c.pass, c.param) :: l) s'

theorem runCustom_ok (S : Sys σ) (verr : Int) : ∀ (cs : List (Custom σ)) (s : σ), S.err s = false →
    CustomOrder S verr cs s (runCustom S verr cs s).1 (runCustom S verr cs s).2.1 ∧
    (runCustom S verr cs s).2.2 = S.err (runCustom S verr cs s).2.1
  | [], s, h => ⟨.done s, h.symm⟩
  | c :: cs, s, h => by
    unfold runCustom
    have ih := runCustom_ok S verr cs
    by_cases hen : c.pass.enabled = true
    · rw [if_pos hen]
      have hgo : c.applies verr = true ↔ ∀ f, c.check = some f → f verr = true := by
        unfold Custom.applies
        cases c.check with
        | none => simp
        | some f => simp
      generalize c.applies verr = go at hgo ⊢
      cases go with
      | true =>
        have hc := hgo.1 rfl
        simp only [if_true]
        cases he : S.err (runSingle S c.pass c.param s) with
        | true => exact ⟨.stop _ _ _ _ ⟨hen, hc⟩ (ran_single ..) he, he.symm⟩
        | false => exact ⟨.next _ _ _ _ _ _ ⟨hen, hc⟩ (ran_single ..) he (ih _ he).1, (ih _ he).2⟩
      | false =>
        simp only [Bool.false_eq_true, if_false, h]
        exact ⟨.skip _ _ _ _ _ (fun hh => by have := hgo.2 hh.2; cases this) (ih s h).1, (ih s h).2⟩
    · rw [if_neg hen]
      exact ⟨.skip _ _ _ _ _ (fun hh => hen hh.1) (ih s h).1, (ih s h).2⟩

/-- `bpf_ir_run`, if none of the pre-passes reports an error: pre-passes, custom passes and post-passes run in this
order, and nothing runs after an error. -/
theorem C42_run_partial (S : Sys σ) (cfg : List Cfg) (verr : Int) (pre : List (Pass σ)) (cs : List (Custom σ))
    (post : List (Pass σ)) (s : σ) (h : S.err s = false) (hpre : S.err (runPasses S cfg pre s).2 = false) :
    ∃ l1 s1 l2 s2, InOrder S cfg pre s l1 s1 ∧ CustomOrder S verr cs s1 l2 s2 ∧
      ((S.err s2 = true ∧ run S cfg verr pre cs post s = (l1 ++ l2, s2)) ∨
       (S.err s2 = false ∧ ∃ l3 s3, InOrder S cfg post s2 l3 s3 ∧ run S cfg verr pre cs post s = (l1 ++ l2 ++ l3, s3))) := by
  have hc := runCustom_ok S verr cs _ hpre
  refine ⟨_, _, _, _, C42_passes S cfg pre s h, hc.1, ?_⟩
  unfold run
  dsimp only
  cases he : S.err (runCustom S verr cs (runPasses S cfg pre s).2).2.1 with
  | true => exact .inl ⟨rfl, by rw [hc.2, he]; rfl⟩
  | false => exact .inr ⟨rfl, _, _, C42_passes S cfg post _ he, by rw [hc.2, he]; rfl⟩

/-! Examples: the state is the list of the names of passes that ran, and the error flag. -/

def exPass (n : String) (en fail : Bool) : Pass (List String × Bool) :=
  { name := n, enabled := en, force := false, act := fun _ s => (s.1 ++ [n], fail) }

def exSys : Sys (List String × Bool) := { err := (·.2), post := id }

example : (runPasses exSys [⟨"b", some 3, true⟩, ⟨"b", none, false⟩, ⟨"c", none, false⟩]
    [exPass "a" true false, exPass "b" false false, exPass "c" true false, exPass "d" true true, exPass "e" true false]
    ([], false)).2 = (["a", "b", "d"], true) := by decide +kernel

/-- The error of a pre-pass is not looked at: with no custom pass, the first post-pass still runs. -/
theorem C42_run_violated : (run exSys [] 0 [exPass "pre" true true] [] [exPass "post" true false] ([], false)).2 =
    (["pre", "post"], false) := by decide +kernel

/-! ## C45 -/

variable {ι φ γ : Type}

/-- A program longer than the maximum: error, bytecode unchanged, whatever the phases would do. -/
theorem C45_limit (P : Phases ι φ γ) (o : Opts) (e : Env ι) (h0 : 0 < o.maxInsns) (h : o.maxInsns < e.insns.length) :
    (autorun P o e).err = true ∧ (autorun P o e).insns = e.insns := by
  unfold autorun
  dsimp only
  rw [if_pos ⟨h0, h⟩]
  exact ⟨rfl, rfl⟩

/-- A run that ends with an error leaves the bytecode unchanged, unless it is a fake run or the last allocation
failed. -/
theorem C45_failed_partial (P : Phases ι φ γ) (o : Opts) (e : Env ι) (he : e.err = false) (hf : o.fakeRun = false)
    (ha : ∀ g, P.alloc g = true) (h : (autorun P o e).err = true) : (autorun P o e).insns = e.insns := by
  revert h
  unfold autorun
  dsimp only
  split
  · exact fun _ => rfl
  · split
    · exact fun _ => rfl
    · split
      · exact fun _ => rfl
      · split
        · exact fun _ => rfl
        · split
          · exact fun _ => rfl
          · rw [if_pos (ha _), hf]
            intro h; rw [if_neg (by decide)] at h; rw [h] at he; cases he

/-- A run without error that is not print-only has put the generated code into the environment. -/
theorem C45_done (P : Phases ι φ γ) (o : Opts) (e : Env ι) (h : (autorun P o e).err = false) (hp : o.printOnly = false) :
    ∃ f f' g, P.lift e.insns = some f ∧ P.passes f = some f' ∧ P.gen f' = some g ∧ (autorun P o e).insns = P.synth g := by
  revert h
  unfold autorun
  dsimp only
  split
  · intro h; cases h
  · rw [hp, if_neg (by decide)]
    cases h1 : P.lift e.insns with
    | none => intro h; cases h
    | some f =>
      dsimp only
      cases h2 : P.passes f with
      | none => intro h; cases h
      | some f' =>
        dsimp only
        cases h3 : P.gen f' with
        | none => intro h; cases h
        | some g =>
          dsimp only
          split
          · intro h
            refine ⟨f, f', g, rfl, h2, h3, ?_⟩
            split <;> rfl
          · intro h; cases h

def exPhases (ok : Bool) : Phases Nat (List Nat) (List Nat) where
  lift := some
  passes := fun l => if l.length = 1 then none else some l
  gen := fun l => some (l ++ l)
  alloc := fun _ => ok
  synth := id

example : (autorun (exPhases true) ⟨2, false, false⟩ ⟨[1, 2, 3], false, false⟩) = ⟨[1, 2, 3], true, true⟩ ∧
    (autorun (exPhases true) ⟨2, false, false⟩ ⟨[1], false, false⟩) = ⟨[1], true, true⟩ ∧
    (autorun (exPhases true) ⟨2, false, false⟩ ⟨[1, 2], false, false⟩) = ⟨[1, 2, 1, 2], false, true⟩ := ⟨rfl, rfl, rfl⟩

/-- A fake run reports an error but has replaced the bytecode. -/
theorem C45_violated_fake :
    autorun (exPhases true) ⟨0, false, true⟩ ⟨[1, 2], false, false⟩ = ⟨[1, 2, 1, 2], true, true⟩ := rfl

/-- After a failed allocation of the new array the old one is lost. -/
theorem C45_violated_alloc :
    autorun (exPhases false) ⟨0, false, false⟩ ⟨[1, 2], false, false⟩ = ⟨[], true, true⟩ := rfl

/-! ## C44 -/

theorem copy_ok : ∀ (cs : List Char) (b : Nat → Char) (p : Nat), p + cs.length ≤ logSize →
    ∃ b', copy b p cs = .ok b' ∧ (∀ i, i < p → b' i = b i) ∧ (∀ i (h : i < cs.length), b' (p + i) = cs[i]) ∧
      ∀ i, p + cs.length ≤ i → b' i = b i
  | [], b, p, _ => ⟨b, rfl, fun _ _ => rfl, fun i h => absurd h (by simp), fun _ _ => rfl⟩
  | c :: cs, b, p, h => by
    simp only [List.length_cons] at h
    obtain ⟨b', h1, h2, h3, h4⟩ := copy_ok cs (fun i => if i = p then c else b i) (p + 1) (by omega)
    refine ⟨b', by rw [copy, if_neg (by omega)]; exact h1, ?_, ?_, ?_⟩
    · intro i hi
      rw [h2 i (by omega), if_neg (by omega)]
    · intro i hi
      cases i with
      | zero => rw [Nat.add_zero, h2 p (by omega), if_pos rfl]; rfl
      | succ i =>
        have := h3 i (by simpa using hi)
        rw [show p + (i + 1) = p + 1 + i by omega, this]; rfl
    · intro i hi
      simp only [List.length_cons] at hi
      rw [h4 i (by omega), if_neg (by omega)]

/-- What the log holds. -/
def Log.text (l : Log) : List Char := (List.range l.pos).map l.buf

/-- Messages logged one after the other, with the level of each. -/
def prints (verbose : Int) : List (Int × List Char) → Log → Out Log
  | [], l => .ok l
  | m :: ms, l => do
    let l ← print verbose m.1 m.2 l
    prints verbose ms l

theorem print_ok (verbose level : Int) (m : List Char) (l : Log) (hm : m.length < 200) (hl : l.pos < logSize) :
    ∃ l', print verbose level m l = .ok l' ∧ l'.pos < logSize ∧
      (l' = l ∨ l'.text = l.text ++ m.takeWhile (· != '\x00') ∨ l'.text = m.takeWhile (· != '\x00')) := by
  unfold print
  by_cases hv : verbose < level
  · rw [if_pos hv]; exact ⟨l, rfl, hl, .inl rfl⟩
  rw [if_neg hv, if_neg (by omega)]
  dsimp only
  have hs : (m.takeWhile (· != '\x00')).length ≤ m.length := (List.takeWhile_sublist _).length_le
  generalize m.takeWhile (· != '\x00') = s at hs ⊢
  have h200 : 200 < logSize := by decide
  by_cases hw : logSize ≤ l.pos + s.length
  · rw [if_pos hw]
    obtain ⟨b', h1, h2, h3, h4⟩ := copy_ok s l.buf 0 (by omega)
    rw [h1]
    refine ⟨_, rfl, by show 0 + s.length < logSize; omega, .inr (.inr ?_)⟩
    apply List.ext_getElem
    · simp [Log.text]
    · intro i hi hi'
      have := h3 i hi'
      simp only [Log.text, List.getElem_map, List.getElem_range]
      rw [← this, Nat.zero_add]
  · rw [if_neg hw]
    obtain ⟨b', h1, h2, h3, h4⟩ := copy_ok s l.buf l.pos (by omega)
    rw [h1]
    refine ⟨_, rfl, by show l.pos + s.length < logSize; omega, .inr (.inl ?_)⟩
    apply List.ext_getElem
    · simp [Log.text]
    · intro i hi hi'
      simp only [Log.text, List.getElem_map, List.getElem_range, List.getElem_append, List.length_map, List.length_range]
      split
      · exact h2 i (by assumption)
      · rename_i hp
        have hb : i - l.pos < s.length := by simp [Log.text] at hi; omega
        have := h3 (i - l.pos) hb
        rw [← this, show l.pos + (i - l.pos) = i by omega]

/-- Any sequence of messages of less than 200 bytes: no write outside the buffer, and afterwards there is still room
for the NUL that ends the log. -/
theorem C44_log_partial (verbose : Int) : ∀ (ms : List (Int × List Char)) (l : Log), l.pos < logSize →
    (∀ m ∈ ms, m.2.length < 200) → ∃ l', prints verbose ms l = .ok l' ∧ l'.pos < logSize
  | [], l, hl, _ => ⟨l, rfl, hl⟩
  | m :: ms, l, hl, hm => by
    obtain ⟨l1, h1, h2, _⟩ := print_ok verbose m.1 m.2 l (hm m (by simp)) hl
    obtain ⟨l2, h3, h4⟩ := C44_log_partial verbose ms l1 h2 (fun x hx => hm x (by simp [hx]))
    exact ⟨l2, by simp only [prints, h1]; exact h3, h4⟩

/-- A longer message overruns the 200-byte buffer it is formatted in. -/
theorem C44_message_violated (verbose level : Int) (m : List Char) (l : Log) (hv : level ≤ verbose) (hm : 200 ≤ m.length) :
    print verbose level m l = .ub := by
  unfold print
  rw [if_neg (by omega), if_pos hm]

/-- Every 1000 characters in a row contain a newline among the first 999. -/
def ShortLines (t : List Char) : Prop := ∀ a b c, t = a ++ b ++ c → b.length = 999 → c ≠ [] → '\n' ∈ b

theorem line_spec : ∀ (k : Nat) (cs : List Char),
    cs = (line k cs).1 ++ (line k cs).2 ∧ (line k cs).1.length ≤ k ∧
    (0 < k → cs ≠ [] → (line k cs).1 ≠ []) ∧
    ((line k cs).1.length = k → 0 < k → '\n' ∉ (line k cs).1.dropLast)
  | 0, cs => by simp [line]
  | k + 1, [] => by simp [line]
  | k + 1, c :: cs => by
    unfold line
    by_cases hc : c = '\n'
    · rw [if_pos hc]; simp
    · rw [if_neg hc]
      obtain ⟨h1, h2, h3, h4⟩ := line_spec k cs
      refine ⟨by simpa using h1, by simpa using h2, by simp, ?_⟩
      intro hl _
      simp only [List.length_cons, Nat.add_right_cancel_iff] at hl
      show '\n' ∉ (c :: (line k cs).1).dropLast
      revert hl h4
      generalize (line k cs).1 = r
      intro h4 hl
      cases r with
      | nil => simp
      | cons d ds =>
        have : 0 < k := by rw [← hl]; simp
        have h4 := h4 hl this
        rw [List.dropLast_cons_of_ne_nil (by simp)]
        simp only [List.mem_cons, not_or]
        exact ⟨Ne.symm hc, h4⟩

theorem lines_ok : ∀ (n : Nat) (t : List Char), t.length ≤ n → ShortLines t → ∃ ls, lines n t = .ok ls ∧ ls.flatten = t
  | _, [], _, _ => ⟨[], by unfold lines; rfl, rfl⟩
  | 0, c :: cs, h, _ => by simp at h
  | n + 1, c :: cs, h, hs => by
    unfold lines
    obtain ⟨h1, h2, h3, h4⟩ := line_spec 1000 (c :: cs)
    have hne := h3 (by decide) (by simp)
    generalize line 1000 (c :: cs) = r at *
    obtain ⟨a, b⟩ := r
    dsimp only at *
    have hlen : ¬ 1000 ≤ a.length := by
      intro hge
      have hl : a.length = 1000 := by omega
      have h4 := h4 hl (by decide)
      have hd : a = a.dropLast ++ [a.getLast hne] := (List.dropLast_concat_getLast hne).symm
      have happ : c :: cs = [] ++ a.dropLast ++ ([a.getLast hne] ++ b) := by
        rw [h1, List.nil_append, ← List.append_assoc, ← hd]
      exact h4 (hs [] a.dropLast ([a.getLast hne] ++ b) happ (by simp [hl]) (by simp))
    rw [if_neg hlen]
    have hb : b.length ≤ n := by
      have : (c :: cs).length = a.length + b.length := by rw [h1]; simp
      have : 0 < a.length := List.length_pos_iff.2 hne
      omega
    obtain ⟨ls, e1, e2⟩ := lines_ok n b hb (fun x y z e => hs (a ++ x) y z (by rw [h1, e]; simp))
    rw [e1]
    exact ⟨_, rfl, by rw [List.flatten_cons, e2]; exact h1.symm⟩

/-- If no line has more than 999 bytes, the dump stays in its line buffer and prints exactly the log. -/
theorem C44_dump_partial (verbose : Int) (l : Log) (hv : verbose ≠ 0) (hp : l.pos < logSize) (hs : ShortLines l.text) :
    ∃ ls, dump verbose l = .ok ls ∧ ls.flatten = l.text := by
  unfold dump
  rw [if_neg hv]
  by_cases h0 : l.pos = 0
  · rw [if_pos h0]; exact ⟨[], rfl, by simp [Log.text, h0]⟩
  · rw [if_neg h0, if_neg (by omega)]
    exact lines_ok _ _ (by simp) hs

def emptyLog : Log := ⟨fun _ => ' ', 0⟩

/-- Ten messages of 100 bytes without a newline are within all limits of logging, but dumping them writes the NUL
behind the line buffer. -/
theorem C44_dump_violated :
    (match prints 1 (List.replicate 10 (1, List.replicate 100 'a')) emptyLog with
     | .ok l => (match dump 1 l with | .ub => true | _ => false)
     | _ => false) = true := by decide +kernel

example : (match prints 1 [(1, "ab\ncd".toList), (2, "x".toList), (0, "\n".toList)] emptyLog with
    | .ok l => (match dump 1 l with | .ok ls => ls == ["ab\n".toList, "cd\n".toList] | _ => false)
    | _ => false) = true := by decide +kernel

end Verif.Drive
