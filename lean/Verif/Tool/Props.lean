import Verif.Tool.Model
/-!
# C63, C64, C65: the tool
-/
namespace Verif.Tool
open Verif Verif.Bpf Verif.Opts

/-! ## C63: the log format -/

theorem ofU64_toU64 (s : Slot) : ofU64 (toU64 s) = s := by
  obtain ⟨code, dst, src, off, imm⟩ := s
  simp only [ofU64, toU64, Slot.mk.injEq]
  refine ⟨?_, ?_, ?_, ?_, ?_⟩
  all_goals
    apply BitVec.eq_of_getLsbD_eq
    intro i hi
    simp only [BitVec.getLsbD_extractLsb', BitVec.getLsbD_append, hi, decide_true, Bool.true_and]
    repeat' split
    all_goals first
      | omega
      | (congr 1; omega)
      | skip

theorem digit_of {n : Nat} (h : n < 10) : (Char.ofNat (48 + n)).isDigit = true ∧ digit (Char.ofNat (48 + n)) = n := by
  have : n = 0 ∨ n = 1 ∨ n = 2 ∨ n = 3 ∨ n = 4 ∨ n = 5 ∨ n = 6 ∨ n = 7 ∨ n = 8 ∨ n = 9 := by omega
  rcases this with rfl | rfl | rfl | rfl | rfl | rfl | rfl | rfl | rfl | rfl <;> decide

theorem digits_append (a b : Str) : digits (a ++ b) = b.foldl (fun n c => n * 10 + digit c) (digits a) := List.foldl_append

/-- A line with a number. -/
structure Number (l : Str) : Prop where
  digits : ∀ c ∈ l, c.isDigit = true
  some : l ≠ []
  short : l.length < 255

theorem decimal_spec : ∀ (k n : Nat), n < 10 ^ (k + 1) → (∀ c ∈ decimal (k + 1) n, c.isDigit = true) ∧ decimal (k + 1) n ≠ [] ∧ (decimal (k + 1) n).length ≤ k + 1 ∧ digits (decimal (k + 1) n) = n
  | k, n, h => by
    unfold decimal
    by_cases hn : n < 10
    · rw [if_pos hn]
      obtain ⟨h1, h2⟩ := digit_of hn
      exact ⟨fun c hc => by rw [List.mem_singleton.1 hc]; exact h1, by simp, by simp, by simp [digits, h2]⟩
    · rw [if_neg hn]
      obtain ⟨h1, h2⟩ := digit_of (Nat.mod_lt n (by decide : 0 < 10))
      cases k with
      | zero => simp at h; omega
      | succ k =>
        have hk : n / 10 < 10 ^ (k + 1) := by
          rw [Nat.div_lt_iff_lt_mul (by decide), ← Nat.pow_succ]
          exact h
        obtain ⟨a, b, c, d⟩ := decimal_spec k (n / 10) hk
        refine ⟨fun x hx => ?_, by simp, by simp; omega, ?_⟩
        · rcases List.mem_append.1 hx with hx | hx
          · exact a x hx
          · rw [List.mem_singleton.1 hx]; exact h1
        · rw [digits_append, d]
          simp only [List.foldl_cons, List.foldl_nil, h2]
          omega

theorem llu_spec (w : BitVec 64) : Number (llu w) ∧ digits (llu w) = w.toNat := by
  have h : w.toNat < 10 ^ (19 + 1) := Nat.lt_of_lt_of_le w.isLt (by decide)
  obtain ⟨a, b, c, d⟩ := decimal_spec 19 w.toNat h
  exact ⟨⟨a, b, Nat.lt_of_le_of_lt c (by decide)⟩, d⟩

theorem digit_not {c : Char} (h : c.isDigit = true) : isSpace c = false ∧ c ≠ '-' ∧ c ≠ '+' ∧ c ≠ '\n' := by
  have h' : '0' ≤ c ∧ c ≤ '9' := by
    simpa [Char.isDigit, Char.le_def, UInt32.le_iff_toNat_le] using h
  have ne : ∀ d : Char, ¬ ('0' ≤ d ∧ d ≤ '9') → c ≠ d := fun d hd e => hd (e ▸ h')
  refine ⟨?_, ne _ (by decide), ne _ (by decide), ne _ (by decide)⟩
  simp only [isSpace, Bool.or_eq_false_iff, decide_eq_false_iff_not]
  exact ⟨⟨⟨⟨⟨ne _ (by decide), ne _ (by decide)⟩, ne _ (by decide)⟩, ne _ (by decide)⟩, ne _ (by decide)⟩, ne _ (by decide)⟩

theorem fgets_line : ∀ (k : Nat) (l rest : Str), (∀ c ∈ l, c ≠ '\n') → l.length < k → fgets k (l ++ '\n' :: rest) = (l ++ ['\n'], rest)
  | 0, _, _, _, h => by omega
  | k + 1, [], rest, _, _ => by simp [fgets]
  | k + 1, c :: l, rest, h, hl => by
    have hc : c ≠ '\n' := h c List.mem_cons_self
    simp only [List.cons_append, fgets, if_neg hc]
    rw [fgets_line k l rest (fun c hc => h c (List.mem_cons_of_mem _ hc)) (by simp at hl; omega)]

theorem strtoull_line {l : Str} (h : Number l) (hv : Opts.digits l < 2 ^ 64) : strtoull (l ++ ['\n']) = BitVec.ofNat 64 (Opts.digits l) := by
  obtain ⟨c, t, rfl⟩ := List.exists_cons_of_ne_nil h.some
  obtain ⟨n1, n2, n3, n4⟩ := digit_not (h.digits c List.mem_cons_self)
  have e1 : (c :: t ++ ['\n']).dropWhile isSpace = c :: t ++ ['\n'] := by
    rw [List.cons_append, List.dropWhile_cons, if_neg (by rw [n1]; simp)]
  have e2 : sign (c :: t ++ ['\n']) = (false, c :: t ++ ['\n']) := by
    rw [List.cons_append]
    unfold sign
    split
    · rename_i e; cases e; exact absurd rfl n2
    · rename_i e; cases e; exact absurd rfl n3
    · rfl
  have e3 : (c :: t ++ ['\n']).takeWhile Char.isDigit = c :: t := by
    rw [List.takeWhile_append_of_pos h.digits]
    simp
  unfold strtoull
  rw [e1, e2]
  dsimp only
  rw [e3, if_neg (by omega)]
  rfl

/-- C63 (reading): a file of numbers, one in a line, up to the end or an empty line, is read as the program of these numbers.  Lines may have up to 254 digits. -/
theorem C63_reads {ls : List Str} (hl : ∀ l ∈ ls, Number l ∧ Opts.digits l < 2 ^ 64) {rest : Str} (hr : rest = [] ∨ ∃ r, rest = '\n' :: r) :
    readLog (ls.flatMap (fun l => l ++ ['\n']) ++ rest) = ls.map fun l => ofU64 (BitVec.ofNat 64 (Opts.digits l)) := by
  have key : ∀ (ls : List Str) (n : Nat), ls.length ≤ n → (∀ l ∈ ls, Number l ∧ Opts.digits l < 2 ^ 64) →
      readLines n (ls.flatMap (fun l => l ++ ['\n']) ++ rest) = ls.map fun l => ofU64 (BitVec.ofNat 64 (Opts.digits l)) := by
    intro ls
    induction ls with
    | nil =>
      intro n _ _
      rcases hr with rfl | ⟨r, rfl⟩
      · cases n <;> rfl
      · cases n with
        | zero => rfl
        | succ n => simp [readLines, fgets]
    | cons l ls ih =>
      intro n hn hl
      obtain ⟨h1, h2⟩ := hl l List.mem_cons_self
      obtain ⟨c, t, e⟩ := List.exists_cons_of_ne_nil h1.some
      have hnl : ∀ c ∈ l, c ≠ '\n' := fun c hc => (digit_not (h1.digits c hc)).2.2.2
      cases n with
      | zero => simp at hn
      | succ n =>
        rw [List.flatMap_cons, List.append_assoc, List.append_assoc, List.singleton_append]
        have hf := fgets_line 255 l (ls.flatMap (fun l => l ++ ['\n']) ++ rest) hnl h1.short
        have hs := strtoull_line h1 h2
        have hh : (l ++ ['\n']).head? ≠ some '\n' := by
          rw [e]
          intro hc
          cases hc
          exact hnl '\n' (by rw [e]; exact List.mem_cons_self) rfl
        generalize hF : l ++ '\n' :: (ls.flatMap (fun l => l ++ ['\n']) ++ rest) = F at hf
        cases F with
        | nil => rw [e] at hF; cases hF
        | cons a F =>
          rw [readLines]
          rw [hf, if_neg hh, hs, ih n (by simp at hn; omega) fun l hl' => hl l (List.mem_cons_of_mem _ hl')]
          rfl
  unfold readLog
  refine key ls _ ?_ hl
  have : ∀ ls : List Str, ls.length ≤ (ls.flatMap (fun l => l ++ ['\n'])).length := by
    intro ls
    induction ls with
    | nil => simp
    | cons l ls ih => rw [List.flatMap_cons, List.length_append, List.length_append]; simp only [List.length_cons, List.length_nil]; omega
  rw [List.length_append]
  have := this ls
  omega

/-- C63: what the tool writes in log format, it reads back as the same program; and it does not take the file for an object file. -/
theorem C63_roundtrip {P : List Slot} (h : P.length < 2 ^ 32) : ∃ file, dump P = some file ∧ readLog file = P ∧ isElf file = false := by
  refine ⟨_, if_pos h, ?_, ?_⟩
  · have := C63_reads (ls := P.map fun s => llu (toU64 s)) (rest := []) (by
      intro l hl
      obtain ⟨s, _, rfl⟩ := List.mem_map.1 hl
      obtain ⟨h1, h2⟩ := llu_spec (toU64 s)
      exact ⟨h1, by rw [h2]; exact (toU64 s).isLt⟩) (.inl rfl)
    rw [List.append_nil, List.flatMap_map] at this
    rw [this, List.map_map]
    conv => rhs; rw [← List.map_id P]
    refine List.map_congr_left fun s _ => ?_
    simp only [Function.comp_apply, (llu_spec (toU64 s)).2, BitVec.ofNat_toNat, BitVec.setWidth_eq, ofU64_toU64, id]
  · cases P with
    | nil => rfl
    | cons s P =>
      rw [List.flatMap_cons]
      obtain ⟨c, t, e⟩ := List.exists_cons_of_ne_nil (llu_spec (toU64 s)).1.some
      have hd := (llu_spec (toU64 s)).1.digits c (by rw [e]; exact List.mem_cons_self)
      rw [e]
      unfold isElf
      rw [decide_eq_false_iff_not]
      intro he
      rw [List.cons_append, List.cons_append, List.take_succ_cons] at he
      rw [(List.cons.inj he).1] at hd
      exact absurd hd (by decide)

/-- `r0 = -1; exit` in log format. -/
example : dump [⟨0xb7, 0, 0, 0, 0xffffffff⟩, ⟨0x95, 0, 0, 0, 0⟩] = some "18446744069414584503\n149\n".toList := by decide +kernel

/-- C63 does not hold of all files: a line of more than 255 characters becomes two instructions. -/
theorem C63_violated_long : readLog (List.replicate 255 '0' ++ "149\n".toList) = [ofU64 0, ofU64 149] := by decide +kernel

/-- C63 does not hold of all files: what is not a number is read as an instruction with opcode 0 instead of being refused. -/
theorem C63_violated_text : readLog "exit\n149\n".toList = [ofU64 0, ofU64 149] := by decide +kernel

/-! ## C64: the exit status and the output file -/

/-- The file holds the program, in the format asked for. -/
def Holds (o : UOpts) (P : List Slot) : Str ⊕ List Slot → Prop
  | .inl t => o.secOnly = false ∧ readLog t = P ∧ isElf t = false
  | .inr Q => o.secOnly = true ∧ Q = P

/-- The program was processed without an error. -/
structure Fine (S : Sys) (o : UOpts) (P : List Slot) : Prop where
  opts : S.opts o.gopt o.popt = 0
  auto : (S.auto P).1 = 0
  opens : o.out ≠ [] → S.opens = true

theorem epassRun_fine {S : Sys} {o : UOpts} {old P} (hn : o.noCompile = false) :
    ((epassRun S o old P).code = 0 ↔ Fine S o P) ∧
    (Fine S o P → o.out ≠ [] → (S.auto P).2.length < 2 ^ 32 → ∃ t, (epassRun S o old P).file = some t ∧ Holds o (S.auto P).2 t) ∧
    (¬ Fine S o P ∨ o.out = [] → (epassRun S o old P).file = old) := by
  unfold epassRun
  rw [hn]
  simp only [Bool.false_and, Bool.false_eq_true, if_false]
  by_cases h1 : S.opts o.gopt o.popt = 0
  · rw [if_neg (by simpa using h1)]
    by_cases h2 : (S.auto P).1 = 0
    · rw [if_neg (by simpa using h2)]
      by_cases h3 : o.out = []
      · rw [if_pos h3]
        exact ⟨⟨fun _ => ⟨h1, h2, fun h => absurd h3 h⟩, fun _ => rfl⟩, fun _ h => absurd h3 h, fun _ => rfl⟩
      · rw [if_neg h3]
        by_cases h4 : S.opens = true
        · rw [if_pos h4]
          have hf : Fine S o P := ⟨h1, h2, fun _ => h4⟩
          refine ⟨⟨fun _ => hf, fun _ => rfl⟩, fun _ _ hl => ⟨_, rfl, ?_⟩, fun h => ?_⟩
          · by_cases hs : o.secOnly = true
            · rw [if_pos hs]; exact ⟨hs, rfl⟩
            · rw [if_neg hs]
              obtain ⟨t, e, h5, h6⟩ := C63_roundtrip hl
              rw [e]
              exact ⟨by simpa using hs, h5, h6⟩
          · rcases h with h | h
            · exact absurd hf h
            · exact absurd h h3
        · rw [if_neg h4]
          exact ⟨⟨fun h => absurd h (by decide : (1 : Int) ≠ 0), fun h => absurd (h.opens h3) h4⟩, fun h => absurd (h.opens h3) h4, fun _ => rfl⟩
    · rw [if_pos (by simpa using h2)]
      exact ⟨⟨fun h => absurd h h2, fun h => absurd h.auto h2⟩, fun h => absurd h.auto h2, fun _ => rfl⟩
  · rw [if_pos (by simpa using h1)]
    exact ⟨⟨fun h => absurd h h1, fun h => absurd h.opts h1⟩, fun h => absurd h.opts h1, fun _ => rfl⟩

/-- The one program of the input: that of a file in log format, the one asked for with `-s`, or the only one of an object file. -/
inductive Single (S : Sys) (o : UOpts) : List Slot → Ran → Prop
  | log (file : Str) : Single S o (readLog file) (epassReadlog S o file)
  | named (obj : List (Str × List Slot)) (P : List Slot) (r : Ran) (hs : o.autoSec = false)
      (h : ∃ a b, obj = a ++ (o.sec, P) :: b ∧ ∀ p ∈ a, p.1 ≠ o.sec) (hr : epassRead S o obj = .ok r) : Single S o P r
  | only (n : Str) (P : List Slot) (r : Ran) (hs : o.autoSec = true) (hr : epassRead S o [(n, P)] = .ok r) : Single S o P r

theorem Single.run {S : Sys} {o : UOpts} {P r} (h : Single S o P r) : r = epassRun S o none P := by
  cases h with
  | log file => rfl
  | named obj _ _ hs h hr =>
    obtain ⟨a, b, rfl, ha⟩ := h
    unfold epassRead at hr
    rw [if_neg (by rw [hs]; simp)] at hr
    have : (a ++ (o.sec, P) :: b).find? (fun p => p.1 = o.sec) = some (o.sec, P) := by
      rw [List.find?_append, List.find?_eq_none.2 (fun p hp => by simpa using ha p hp)]
      simp
    rw [this] at hr
    exact (Out.ok.inj hr).symm
  | only n _ _ hs hr =>
    unfold epassRead at hr
    rw [if_pos hs] at hr
    split at hr
    · cases hr
    · exact (Out.ok.inj hr).symm

/-- C64 (one program, without `--pass-only`): the exit status is 0 exactly if the options were accepted, ePass had no error and the output
file, if asked for, was opened; then it holds the program ePass made, in the format asked for.  Otherwise nothing is written.

Missing: several programs and `--pass-only`, where it does not hold (`C64_violated_status`, `C64_violated_pass_only`). -/
theorem C64_single_partial {S : Sys} {o : UOpts} {P : List Slot} {r : Ran} (hn : o.noCompile = false) (hr : Single S o P r) :
    (r.code = 0 ↔ Fine S o P) ∧
    (r.code = 0 → o.out ≠ [] → (S.auto P).2.length < 2 ^ 32 → ∃ t, r.file = some t ∧ Holds o (S.auto P).2 t) ∧
    (r.code ≠ 0 ∨ o.out = [] → r.file = none) := by
  obtain ⟨h1, h2, h3⟩ := epassRun_fine (S := S) (o := o) (old := none) (P := P) hn
  rw [hr.run]
  exact ⟨h1, fun h => h2 (h1.1 h), fun h => h3 (h.imp (fun h hf => h (h1.2 hf)) id)⟩

/-- C64 (programs of which there is none): a program that is not there is an error. -/
theorem C64_not_found {S : Sys} {o : UOpts} {obj : List (Str × List Slot)} (hs : o.autoSec = false) (h : ∀ p ∈ obj, p.1 ≠ o.sec) : epassRead S o obj = .ok ⟨1, none⟩ := by
  unfold epassRead
  rw [if_neg (by rw [hs]; simp), List.find?_eq_none.2 (fun p hp => by simpa using h p hp)]

theorem readAll_append (S : Sys) (o : UOpts) : ∀ (Ps : List (List Slot)) (P : List Slot) (r : Ran), readAll S o (Ps ++ [P]) r = epassRun S o (readAll S o Ps r).file P
  | [], _, _ => rfl
  | Q :: Ps, P, r => readAll_append S o Ps P (epassRun S o r.file Q)

/-- C64 (several programs, what does hold): the status tells whether the last one was processed without error; the file holds the
last one then. -/
theorem C64_last_partial {S : Sys} {o : UOpts} {obj : List (Str × List Slot)} {p : Str × List Slot} (hn : o.noCompile = false) (hs : o.autoSec = true)
    (hl : ∀ q ∈ obj ++ [p], q.1.length < 64) :
    ∃ r, epassRead S o (obj ++ [p]) = .ok r ∧ (r.code = 0 ↔ Fine S o p.2) ∧
      (r.code = 0 → o.out ≠ [] → (S.auto p.2).2.length < 2 ^ 32 → ∃ t, r.file = some t ∧ Holds o (S.auto p.2).2 t) := by
  refine ⟨readAll S o ((obj ++ [p]).map (·.2)) ⟨0, none⟩, ?_, ?_⟩
  · unfold epassRead
    rw [if_pos hs, if_neg]
    rintro (h | ⟨q, hq, h⟩)
    · simp at h
    · exact absurd (hl q hq) (by omega)
  · rw [List.map_append, List.map_singleton, readAll_append]
    obtain ⟨h1, h2, _⟩ := epassRun_fine (S := S) (o := o) (old := (readAll S o (obj.map (·.2)) ⟨0, none⟩).file) (P := p.2) hn
    exact ⟨h1, fun h => h2 (h1.1 h)⟩

def exitProg : List Slot := [⟨0xb7, 0, 0, 0, 0⟩, ⟨0x95, 0, 0, 0, 0⟩]

/-- ePass refuses every program but `exitProg`, which it leaves as it is. -/
def exSys : Sys where
  opts _ _ := 0
  lift P := if P = exitProg then 0 else -22
  passes _ := 0
  auto P := if P = exitProg then (0, P) else (-22, P)
  opens := true

example : (epassReadlog exSys { out := ['o'] } "183\n149\n".toList) = ⟨0, some (.inl "183\n149\n".toList)⟩ := by decide +kernel
example : (epassReadlog exSys { out := ['o'] } "183\n183\n".toList) = ⟨-22, none⟩ := by decide +kernel
example : Single exSys { autoSec := false, sec := ['b'] } exitProg ⟨0, none⟩ :=
  .named [(['a'], []), (['b'], exitProg)] _ _ rfl ⟨[(['a'], [])], [], rfl, by decide⟩ (by decide +kernel)

/-- C64 does not hold of files with several programs: the first one is refused, the status is 0 all the same, and the file holds
the second one only. -/
theorem C64_violated_status : epassRead exSys { out := ['o'] } [(['a'], []), (['b'], exitProg)] = .ok ⟨0, some (.inl "183\n149\n".toList)⟩ ∧ ¬ Fine exSys { out := ['o'] } [] :=
  ⟨by decide +kernel, fun h => absurd h.auto (by decide +kernel)⟩

/-- C64 does not hold of files with several programs: both succeed, and the file holds only one of them. -/
theorem C64_violated_file : epassRead { exSys with auto := fun P => (0, P) } { out := ['o'] } [(['a'], [⟨0x95, 0, 0, 0, 0⟩]), (['b'], exitProg)] =
    .ok ⟨0, some (.inl "183\n149\n".toList)⟩ := by decide +kernel

/-- C64 does not hold with `--pass-only`: the program is refused by the lifter, the status is 0. -/
theorem C64_violated_pass_only : exSys.lift [] ≠ 0 ∧ epassReadlog exSys { noCompile := true, out := ['o'] } [] = ⟨0, none⟩ := by decide +kernel

/-- C64 does not hold with an object file without programs: `bpf_program__name(NULL)`. -/
theorem C64_violated_empty : epassRead exSys {} [] = .ub := by decide +kernel

/-! ## C65: the command line -/

/-- What the usage message offers. -/
inductive Item
  /-- `--pass-only`, `-P` -/
  | passOnly (short : Bool)
  | gopt (v : Str)
  | popt (v : Str)
  /-- `--sec`, `-s` -/
  | sec (short : Bool) (v : Str)
  | out (v : Str)
  | fmt (sec : Bool)
  | file (v : Str)
  deriving DecidableEq

namespace Item

/-- How it is written on the command line. -/
def words : Item → List Str
  | passOnly s => [if s then str "-P" else str "--pass-only"]
  | gopt v => [str "--gopt", v]
  | popt v => [str "--popt", v]
  | sec s v => [if s then str "-s" else str "--sec", v]
  | out v => [str "-o", v]
  | fmt s => [str "-F", if s then str "sec" else str "log"]
  | file v => [v]

/-- What it means. -/
def set (o : UOpts) : Item → UOpts
  | passOnly _ => { o with noCompile := true }
  | gopt v => { o with gopt := v }
  | popt v => { o with popt := v }
  | sec _ v => { o with autoSec := false, sec := v }
  | out v => { o with out := v }
  | fmt s => { o with secOnly := s }
  | file v => { o with prog := v }

/-- The options of a command: `print` knows fewer of them. -/
def names (print : Bool) : List Str :=
  [str "--gopt", str "--popt", str "--sec", str "-s"] ++ if print then [] else [str "--pass-only", str "-P", str "-o", str "-F"]

/-- It can be given with the command, and fits in its buffer. -/
def Ok (print : Bool) : Item → Prop
  | passOnly _ => print = false
  | gopt v => v.length < 64
  | popt v => v.length < 64
  | sec _ v => v.length < 64
  | out v => print = false ∧ v.length < 64
  | fmt _ => print = false
  | file v => v ∉ names print ∧ v.length < 64

def file? : Item → Option Str
  | file v => some v
  | _ => none

end Item

/-- The command, and everything behind it. -/
def commandLine (print : Bool) (is : List Item) : List Str := (if print then str "print" else str "read") :: is.flatMap Item.words

theorem Item.set_print (o : UOpts) (i : Item) : (i.set o).print = o.print := by cases i <;> rfl

theorem Item.set_prog (o : UOpts) (i : Item) (h : i.file? = none) : (i.set o).prog = o.prog := by cases i <;> first | rfl | cases h

theorem parse_one {i : Item} {o : UOpts} (h : i.Ok o.print) (hf : i.file? ≠ none → o.prog = []) (rest : List Str) : parseArgs (i.words ++ rest) o = parseArgs rest (i.set o) := by
  have n1 : ¬ str "--gopt" = str "--pass-only" := by decide
  have n2 : ¬ str "--gopt" = str "-P" := by decide
  cases i with
  | passOnly s =>
    have hp : o.print = false := h
    cases s
    all_goals
      rw [Item.words, List.cons_append, List.nil_append, parseArgs.eq_def]
      dsimp only
      rw [if_pos (by rw [hp]; decide)]
      rfl
  | gopt v =>
    have hv : v.length < 64 := h
    rw [Item.words, List.cons_append, List.cons_append, parseArgs]
    rw [if_neg (by simp [n1, n2]), if_pos rfl]
    simp [cpy, hv, Item.set]
  | popt v =>
    have hv : v.length < 64 := h
    rw [Item.words, List.cons_append, List.cons_append, parseArgs]
    rw [if_neg (by simp; intro _; decide), if_neg (by decide), if_pos rfl]
    simp [cpy, hv, Item.set]
  | sec s v =>
    have hv : v.length < 64 := h
    cases s
    all_goals
      rw [Item.words, List.cons_append, List.cons_append, parseArgs]
      simp only [Bool.false_eq_true, if_false, if_true]
      rw [if_neg (by simp; intro _; decide), if_neg (by decide), if_neg (by decide), if_pos (by decide)]
      simp [cpy, hv, Item.set]
  | out v =>
    obtain ⟨hp, hv⟩ : o.print = false ∧ v.length < 64 := h
    rw [Item.words, List.cons_append, List.cons_append, parseArgs]
    rw [if_neg (by rw [hp]; decide), if_neg (by decide), if_neg (by decide), if_neg (by decide), if_pos (by rw [hp]; decide)]
    simp [cpy, hv, Item.set]
  | fmt s =>
    have hp : o.print = false := h
    cases s
    all_goals
      rw [Item.words, List.cons_append, List.cons_append, parseArgs]
      rw [if_neg (by rw [hp]; decide), if_neg (by decide), if_neg (by decide), if_neg (by decide), if_neg (by rw [hp]; decide), if_pos (by rw [hp]; decide)]
    · rw [if_neg (by decide), if_pos (by decide)]; rfl
    · rw [if_pos (by decide)]; rfl
  | file v =>
    obtain ⟨hv, hl⟩ : v ∉ Item.names o.print ∧ v.length < 64 := h
    have hfp := hf (by simp [Item.file?])
    simp only [Item.names, List.mem_append, List.mem_cons, List.not_mem_nil, or_false, not_or] at hv
    obtain ⟨⟨a, b, c, d⟩, e⟩ := hv
    rw [Item.words, List.cons_append, List.nil_append, parseArgs.eq_def]
    dsimp only
    rw [if_neg, if_neg a, if_neg b, if_neg (by simp [c, d]), if_neg, if_neg, if_pos hfp]
    · simp [cpy, hl, Item.set]
    all_goals
      cases hp : o.print
      · rw [hp] at e
        simp at e
        simp [e]
      · simp

theorem parse_items : ∀ (is : List Item) (o : UOpts), (∀ i ∈ is, i.Ok o.print) → o.prog = [] → ∀ v, v ≠ [] → is.filterMap Item.file? = [v] → parseArgs (is.flatMap Item.words) o = .ok (some (is.foldl Item.set o))
  | [], _, _, _, _, _, h => by cases h
  | i :: is, o, hi, ho, v, hv, h => by
    rw [List.flatMap_cons, parse_one (hi i List.mem_cons_self) (fun _ => ho)]
    have hi' : ∀ j ∈ is, j.Ok (i.set o).print := fun j hj => by rw [Item.set_print]; exact hi j (List.mem_cons_of_mem _ hj)
    cases hfi : i.file? with
    | none =>
      rw [List.filterMap_cons_none hfi] at h
      exact parse_items is _ hi' (by rw [Item.set_prog _ _ hfi, ho]) v hv h
    | some w =>
      rw [List.filterMap_cons_some hfi] at h
      have hn : is.filterMap Item.file? = [] := (List.cons.inj h).2
      have hw : w = v := (List.cons.inj h).1
      have hp : (i.set o).prog = v := by
        cases i <;> simp [Item.file?] at hfi
        rw [← hw, ← hfi]; rfl
      clear h
      have key : ∀ (is : List Item) (o : UOpts), (∀ i ∈ is, i.Ok o.print) → o.prog ≠ [] → is.filterMap Item.file? = [] → parseArgs (is.flatMap Item.words) o = .ok (some (is.foldl Item.set o)) := by
        intro is
        induction is with
        | nil => intro o _ ho _; simp [parseArgs, ho]
        | cons j is ih =>
          intro o hj ho h
          have hfj : j.file? = none := by
            cases e : j.file? with
            | none => rfl
            | some w => rw [List.filterMap_cons_some e] at h; cases h
          rw [List.flatMap_cons, parse_one (hj j List.mem_cons_self) (fun h => absurd hfj h)]
          rw [List.filterMap_cons_none hfj] at h
          exact ih _ (fun k hk => by rw [Item.set_print]; exact hj k (List.mem_cons_of_mem _ hk)) (by rw [Item.set_prog _ _ hfj]; exact ho) h
      exact key is _ hi' (by rw [hp]; exact hv) hn

/-- C65 (understood): a command with options in any order and one file is understood as the usage message says; of an option given
several times the last one counts. -/
theorem C65_understood {print : Bool} {is : List Item} (h : ∀ i ∈ is, i.Ok print) {v : Str} (hv : v ≠ []) (hf : is.filterMap Item.file? = [v]) :
    parseCli (commandLine print is) = .ok (some (is.foldl Item.set { print })) := by
  cases print
  · exact parse_items is {} h rfl v hv hf
  · exact parse_items is { print := true } h rfl v hv hf

/-- How one step of the parser can go on. -/
theorem parse_split (a : Str) (rest : List Str) (o : UOpts) :
    parseArgs (a :: rest) o = .ok none ∨ (parseArgs (a :: rest) o = .ub ∧ ∃ w ∈ a :: rest, 64 ≤ w.length) ∨
    ∃ (i : Item) (rest' : List Str), i.Ok o.print ∧ (i.file? ≠ none → o.prog = []) ∧ a :: rest = i.words ++ rest' ∧ rest'.length ≤ rest.length := by
  have two : ∀ (i : Str → Item) (n : Str), (∀ v, (i v).words = [n, v]) → (∀ v, v.length < 64 → (i v).Ok o.print) → (∀ v, (i v).file? = none) → a = n →
      ∀ {E : Out (Option UOpts)}, (rest = [] → E = .ok none) → (∀ v r, rest = v :: r → E = (cpy v >>= fun v => parseArgs r ((i v).set o))) →
      (E = .ok none ∨ (E = .ub ∧ ∃ w ∈ a :: rest, 64 ≤ w.length) ∨
        ∃ (i : Item) (rest' : List Str), i.Ok o.print ∧ (i.file? ≠ none → o.prog = []) ∧ a :: rest = i.words ++ rest' ∧ rest'.length ≤ rest.length) := by
    intro i n hw hok hf ha E h1 h2
    cases rest with
    | nil => exact .inl (h1 rfl)
    | cons v r =>
      rw [h2 v r rfl]
      unfold cpy
      by_cases hv : v.length < 64
      · exact .inr (.inr ⟨i v, r, hok v hv, fun h => absurd (hf v) h, by rw [hw, ha]; rfl, by simp⟩)
      · rw [if_neg hv]
        exact .inr (.inl ⟨rfl, v, by simp, by omega⟩)
  rw [parseArgs.eq_def]
  dsimp only
  split
  · rename_i h
    simp only [Bool.and_eq_true, Bool.not_eq_true', Bool.or_eq_true, decide_eq_true_eq] at h
    obtain ⟨hp, h⟩ := h
    refine .inr (.inr ⟨.passOnly (a = str "-P"), rest, hp, fun h => absurd rfl h, ?_, Nat.le_refl _⟩)
    rcases h with rfl | rfl <;> rfl
  split
  · rename_i h
    exact two .gopt _ (fun _ => rfl) (fun _ h => h) (fun _ => rfl) h (by rintro rfl; rfl) (by rintro v r rfl; rfl)
  split
  · rename_i h
    exact two .popt _ (fun _ => rfl) (fun _ h => h) (fun _ => rfl) h (by rintro rfl; rfl) (by rintro v r rfl; rfl)
  split
  · rename_i h
    simp only [Bool.or_eq_true, decide_eq_true_eq] at h
    rcases h with h | h
    · exact two (.sec false) _ (fun _ => rfl) (fun _ h => h) (fun _ => rfl) h (by rintro rfl; rfl) (by rintro v r rfl; rfl)
    · exact two (.sec true) _ (fun _ => rfl) (fun _ h => h) (fun _ => rfl) h (by rintro rfl; rfl) (by rintro v r rfl; rfl)
  split
  · rename_i h
    simp only [Bool.and_eq_true, Bool.not_eq_true', decide_eq_true_eq] at h
    exact two .out _ (fun _ => rfl) (fun _ hv => ⟨h.1, hv⟩) (fun _ => rfl) h.2 (by rintro rfl; rfl) (by rintro v r rfl; rfl)
  split
  · rename_i h
    simp only [Bool.and_eq_true, Bool.not_eq_true', decide_eq_true_eq] at h
    cases rest with
    | nil => exact .inl rfl
    | cons v r =>
      dsimp only
      split
      · rename_i hv
        exact .inr (.inr ⟨.fmt true, r, h.1, fun h => absurd rfl h, by rw [h.2, hv]; rfl, by simp⟩)
      split
      · rename_i hv
        exact .inr (.inr ⟨.fmt false, r, h.1, fun h => absurd rfl h, by rw [h.2, hv]; rfl, by simp⟩)
      · exact .inl rfl
  split
  · rename_i h1 h2 h3 h4 h5 h6 h7
    unfold cpy
    by_cases hv : a.length < 64
    · refine .inr (.inr ⟨.file a, rest, ⟨?_, hv⟩, fun _ => h7, rfl, Nat.le_refl _⟩)
      simp only [Bool.or_eq_true, decide_eq_true_eq, not_or, Bool.and_eq_true, Bool.not_eq_true', not_and] at h1 h4 h5 h6
      cases hp : o.print <;> rw [hp] at h1 h5 h6
      · simp [Item.names, h1, h2, h3, h4, h5, h6]
      · simp [Item.names, h2, h3, h4]
    · rw [if_neg hv]
      exact .inr (.inl ⟨rfl, a, by simp, by omega⟩)
  · exact .inl rfl

/-- The files named: empty names in front of the one that counts do no harm. -/
def OneFile (is : List Item) (v : Str) : Prop := ∃ n, is.filterMap Item.file? = List.replicate n [] ++ [v] ∧ v ≠ []

theorem parse_only : ∀ (n : Nat) (args : List Str) (o r : UOpts), args.length ≤ n → parseArgs args o = .ok (some r) →
    ∃ is : List Item, args = is.flatMap Item.words ∧ (∀ i ∈ is, i.Ok o.print) ∧ r = is.foldl Item.set o ∧
      ((o.prog = [] ∧ OneFile is r.prog) ∨ (o.prog ≠ [] ∧ is.filterMap Item.file? = []))
  | _, [], o, r, _, h => by
    unfold parseArgs at h
    split at h
    · cases h
    · cases h
      rename_i ho
      exact ⟨[], rfl, fun _ hi => (List.not_mem_nil hi).elim, rfl, .inr ⟨ho, rfl⟩⟩
  | 0, a :: rest, _, _, hn, _ => by simp at hn
  | n + 1, a :: rest, o, r, hn, h => by
    rcases parse_split a rest o with e | ⟨e, _⟩ | ⟨i, rest', hok, hf, e, hle⟩
    · rw [e] at h; cases h
    · rw [e] at h; cases h
    · rw [e, parse_one hok hf] at h
      obtain ⟨is, e1, e2, e3, e4⟩ := parse_only n rest' _ r (by simp at hn; omega) h
      refine ⟨i :: is, by rw [e, e1]; rfl, fun j hj => ?_, e3, ?_⟩
      · rcases List.mem_cons.1 hj with rfl | hj
        · exact hok
        · rw [← Item.set_print o i]; exact e2 j hj
      · cases hfi : i.file? with
        | none =>
          rw [Item.set_prog _ _ hfi] at e4
          simpa only [OneFile, List.filterMap_cons_none hfi] using e4
        | some w =>
          have ho := hf (by rw [hfi]; simp)
          have hp : (i.set o).prog = w := by
            cases i <;> simp [Item.file?] at hfi
            rw [← hfi]; rfl
          rw [hp] at e4
          left
          refine ⟨ho, ?_⟩
          rcases e4 with ⟨hw, k, h1, h2⟩ | ⟨hw, h1⟩
          · exact ⟨k + 1, by rw [List.filterMap_cons_some hfi, h1, hw, List.replicate_succ]; rfl, h2⟩
          · have hr : r.prog = w := by
              have : ∀ (is : List Item) (o : UOpts), is.filterMap Item.file? = [] → (is.foldl Item.set o).prog = o.prog := by
                intro is
                induction is with
                | nil => intro o _; rfl
                | cons j is ih =>
                  intro o h
                  have hfj : j.file? = none := by
                    cases e : j.file? with
                    | none => rfl
                    | some w => rw [List.filterMap_cons_some e] at h; cases h
                  rw [List.filterMap_cons_none hfj] at h
                  rw [List.foldl_cons, ih _ h, Item.set_prog _ _ hfj]
              rw [e3, this is _ h1, hp]
            exact ⟨0, by rw [List.filterMap_cons_some hfi, h1, hr]; rfl, by rw [hr]; exact hw⟩

/-- C65 (nothing else is): what is understood is such a command line; everything else gets the usage message. -/
theorem C65_only {args : List Str} {o : UOpts} (h : parseCli args = .ok (some o)) :
    ∃ print is, args = commandLine print is ∧ (∀ i ∈ is, i.Ok print) ∧ OneFile is o.prog ∧ o = is.foldl Item.set { print } := by
  unfold parseCli at h
  split at h
  · cases h
  · rename_i a rest
    split at h
    · rename_i ha
      obtain ⟨is, e1, e2, e3, e4⟩ := parse_only _ rest {} o (Nat.le_refl _) h
      refine ⟨false, is, by rw [ha, e1]; rfl, e2, ?_, e3⟩
      rcases e4 with ⟨_, e4⟩ | ⟨e4, _⟩
      · exact e4
      · exact absurd rfl e4
    split at h
    · rename_i ha
      obtain ⟨is, e1, e2, e3, e4⟩ := parse_only _ rest { print := true } o (Nat.le_refl _) h
      refine ⟨true, is, by rw [ha, e1]; rfl, e2, ?_, e3⟩
      rcases e4 with ⟨_, e4⟩ | ⟨e4, _⟩
      · exact e4
      · exact absurd rfl e4
    · cases h

/-- C65 (safety, for arguments of fewer than 64 characters): the parser ends, with the options or the usage message, and writes
behind no buffer.

Missing: longer arguments, of which it does not hold (`C65_violated_long`). -/
theorem C65_safe_partial {args : List Str} (h : ∀ a ∈ args, a.length < 64) : ∃ r, parseCli args = .ok r := by
  have key : ∀ (n : Nat) (args : List Str) (o : UOpts), args.length ≤ n → (∀ a ∈ args, a.length < 64) → ∃ r, parseArgs args o = .ok r := by
    intro n
    induction n with
    | zero =>
      intro args o hn _
      cases args with
      | nil => unfold parseArgs; split <;> exact ⟨_, rfl⟩
      | cons a rest => simp at hn
    | succ n ih =>
      intro args o hn h
      cases args with
      | nil => unfold parseArgs; split <;> exact ⟨_, rfl⟩
      | cons a rest =>
        rcases parse_split a rest o with e | ⟨_, w, hw, hl⟩ | ⟨i, rest', hok, hf, e, hle⟩
        · exact ⟨_, e⟩
        · exact absurd (h w hw) (by omega)
        · rw [e, parse_one hok hf]
          exact ih rest' _ (by simp at hn; omega) fun w hw => h w (by rw [e]; exact List.mem_append_right _ hw)
  unfold parseCli
  split
  · exact ⟨_, rfl⟩
  · rename_i a rest
    have h' : ∀ a ∈ rest, a.length < 64 := fun a ha => h a (List.mem_cons_of_mem _ ha)
    split
    · exact key _ rest _ (Nat.le_refl _) h'
    split
    · exact key _ rest _ (Nat.le_refl _) h'
    · exact ⟨_, rfl⟩

/-- `epasstool read --gopt force a.o -F sec -F log -P -o x` -/
example : parseCli (["read", "--gopt", "force", "a.o", "-F", "sec", "-F", "log", "-P", "-o", "x"].map str) =
    .ok (some { gopt := str "force", prog := str "a.o", out := str "x", noCompile := true }) :=
  C65_understood (print := false) (is := [.gopt (str "force"), .file (str "a.o"), .fmt true, .fmt false, .passOnly true, .out (str "x")])
    (by simp only [List.mem_cons, List.not_mem_nil, or_false]; rintro i (rfl | rfl | rfl | rfl | rfl | rfl) <;> simp only [Item.Ok] <;> decide)
    (v := str "a.o") (by decide) rfl

/-- `print` has no `-o`: it is taken for a file, and there is a second one. -/
example : parseCli (["print", "-o", "a.o"].map str) = .ok none := by decide +kernel

/-- C65 does not hold of longer arguments: an option string of 64 characters (`--gopt` with five settings, say) is written behind its buffer. -/
theorem C65_violated_long : parseCli [str "read", str "--gopt", List.replicate 64 'x', str "a.o"] = .ub := by decide +kernel

/-- The usage message lists `-P` for every command; `print` takes it for the name of a file. -/
theorem C65_violated_print : parseCli [str "print", str "-P"] = .ok (some { print := true, prog := str "-P" }) := by decide +kernel

end Verif.Tool
