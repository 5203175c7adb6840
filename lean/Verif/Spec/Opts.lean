import Verif.Opts.Model
/-!
# Specification: what option strings say
-/
namespace Verif.Opts
open Verif

/-- The options in a string: separated by the character `d`, a separator at the end is allowed. -/
inductive Listed (d : Char) : Str → List Str → Prop
  | nil : Listed d [] []
  | last (o : Str) : o ≠ [] → d ∉ o → Listed d o [o]
  | cons (o s : Str) (l : List Str) : d ∉ o → Listed d s l → Listed d (o ++ d :: s) (o :: l)

/-- Options applied one after the other until one reports an error. -/
def seqOpts {ε : Type} (apply : ε → Str → Out (Int × ε)) : ε → List Str → Out (Int × ε)
  | e, [] => .ok (0, e)
  | e, o :: os => do
    let r ← apply e o
    if r.1 < 0 then .ok r else seqOpts apply r.2 os

/-- A decimal number: white space, sign, at least one digit. -/
inductive Numeral : Str → Int → Prop
  | pos (ws ds : Str) : (∀ c ∈ ws, isSpace c = true) → ds ≠ [] → (∀ c ∈ ds, c.isDigit = true) → Numeral (ws ++ ds) (digits ds)
  | plus (ws ds : Str) : (∀ c ∈ ws, isSpace c = true) → ds ≠ [] → (∀ c ∈ ds, c.isDigit = true) → Numeral (ws ++ '+' :: ds) (digits ds)
  | minus (ws ds : Str) : (∀ c ∈ ws, isSpace c = true) → ds ≠ [] → (∀ c ∈ ds, c.isDigit = true) → Numeral (ws ++ '-' :: ds) (-(digits ds))

/-- Options without a value. -/
def flags : List (Str × (GOpts → GOpts)) :=
  [("force".toList, fun o => { o with force := true }),
   ("print_bpf".toList, fun o => { o with printMode := .bpf }),
   ("print_bpf_detail".toList, fun o => { o with printMode := .bpfDetail }),
   ("print_detail".toList, fun o => { o with printMode := .detail }),
   ("print_dump".toList, fun o => { o with printMode := .dump }),
   ("no_prog_check".toList, fun o => { o with noCheck := true }),
   ("printk_log".toList, fun o => { o with printk := true }),
   ("throw_msg".toList, fun o => { o with throwMsg := true }),
   ("printonly".toList, fun o => { o with printOnly := true }),
   ("fakerun".toList, fun o => { o with fakeRun := true }),
   ("dotgraph".toList, fun o => { o with dotgraph := true })]

/-- Options with a number: name, smallest and greatest value, what is set. -/
def nums : List (Str × Int × Int × (Int → GOpts → GOpts)) :=
  [("verbose=".toList, 0, 10, fun v o => { o with verbose := v }),
   ("maxinsns=".toList, 1, 2147483647, fun v o => { o with maxInsns := v }),
   ("maxit=".toList, 1, 15, fun v o => { o with maxIt := v })]

/-- What a global option means. -/
inductive Means : Str → (GOpts → GOpts) → Prop
  | flag (s : Str) (f : GOpts → GOpts) : (s, f) ∈ flags → Means s f
  | num (n t : Str) (lo hi v : Int) (f : Int → GOpts → GOpts) : (n, lo, hi, f) ∈ nums → Numeral t v → lo ≤ v → v ≤ hi →
      Means (n ++ t) (f v)

/-- A pass option is `name` or `name(parameter)`. -/
inductive Parsed : Str → Str → Option Str → Prop
  | plain (s : Str) : '(' ∉ s → Parsed s s none
  | param (name p rest : Str) : '(' ∉ name → ')' ∉ p → Parsed (name ++ '(' :: (p ++ ')' :: rest)) name (some p)

/-- Loading a parameter: new value of the `param` member, or an error. -/
inductive Loads (load : Option Loader) (par : Option Str) (old : Option Param) : Except Int (Option Param) → Prop
  | nothing : load = none ∨ par = none → Loads load par old (.ok old)
  | value (f : Loader) (p : Str) (v : Param) : load = some f → par = some p → f p = .ok (.ok v) → Loads load par old (.ok (some v))
  | fails (f : Loader) (p : Str) (r : Int) : load = some f → par = some p → f p = .ok (.error r) → Loads load par old (.error r)

/-- Effect of a pass option: the first builtin pass of this name is marked for the last run, or else the first custom
pass of this name is enabled; the parameter is loaded; unknown names and failing loaders are errors. -/
inductive Effect (e : Env) (name : Str) (par : Option Str) : Int → Env → Prop
  | builtin (b : Builtin) (xs ys : List Builtin) (p : Option Param) : e.builtin = xs ++ b :: ys → (∀ x ∈ xs, x.name ≠ name) →
      b.name = name → Loads b.load par b.param (.ok p) →
      Effect e name par 0 { e with builtin := xs ++ { b with param := p, enableCfg := true, enable := false } :: ys }
  | builtinErr (b : Builtin) (xs ys : List Builtin) (r : Int) : e.builtin = xs ++ b :: ys → (∀ x ∈ xs, x.name ≠ name) →
      b.name = name → Loads b.load par b.param (.error r) → Effect e name par r e
  | custom (b : Custom) (xs ys : List Custom) (p : Option Param) : (∀ x ∈ e.builtin, x.name ≠ name) →
      e.custom = xs ++ b :: ys → (∀ x ∈ xs, x.name ≠ name) → b.name = name → Loads b.load par b.param (.ok p) →
      Effect e name par 0 { e with custom := xs ++ { b with param := p, enabled := true } :: ys }
  | customErr (b : Custom) (xs ys : List Custom) (r : Int) : (∀ x ∈ e.builtin, x.name ≠ name) →
      e.custom = xs ++ b :: ys → (∀ x ∈ xs, x.name ≠ name) → b.name = name → Loads b.load par b.param (.error r) →
      Effect e name par r e
  | unknown : (∀ x ∈ e.builtin, x.name ≠ name) → (∀ x ∈ e.custom, x.name ≠ name) → Effect e name par (-22) e

/-- What a list of sub-options of the instruction counter says: limit and accuracy. -/
inductive CounterSays : List Str → Int → Bool → Prop
  | nil : CounterSays [] 1000000 false
  | accurate (l : List Str) (n : Int) (a : Bool) : CounterSays l n a → CounterSays (l ++ ["accurate".toList]) n true
  | limit (l : List Str) (n : Int) (a : Bool) (t : Str) (v : Int) : CounterSays l n a → Numeral t v → -2 ^ 31 ≤ v → v < 2 ^ 31 →
      CounterSays (l ++ ["limit=".toList ++ t]) v a
  | other (l : List Str) (n : Int) (a : Bool) (o : Str) : CounterSays l n a → o ≠ "accurate".toList →
      (∀ t, o ≠ "limit=".toList ++ t) → CounterSays (l ++ [o]) n a

end Verif.Opts
