import Verif.Base
/-!
# Model of option parsing (core/aux/kern_utils.c, core/lli.c, core/passes/insn_counter_pass.c:152-187,
core/passes/optimization.c:121-150)

A C string is the list of its characters without the final NUL.  Every write outside one of the fixed buffers
(`opt[64]`, `pass_name[32]`, `param[64]`, `mopt[30]`) is `ub`.  Simplification: a failed allocation of a parameter is not
modelled.
-/
namespace Verif.Opts
open Verif

abbrev Str := List Char

/-! ## `parse_int` (user space) -/

/-- `isspace` -/
def isSpace (c : Char) : Bool := c = ' ' || c = '\t' || c = '\n' || c = '\x0b' || c = '\x0c' || c = '\x0d'

def digit (c : Char) : Nat := c.toNat - '0'.toNat

/-- Value of a string of decimal digits. -/
def digits (ds : Str) : Nat := ds.foldl (fun n c => n * 10 + digit c) 0

/-- Sign of a number and what follows it. -/
def sign (t : Str) : Bool × Str :=
  match t with
  | '-' :: u => (true, u)
  | '+' :: u => (false, u)
  | u => (false, u)

/-- `strtol(s, &end, 10)`: the value, limited to the range of a 64-bit `long`, and the text at `end` (`s` itself if there
are no digits). -/
def strtol (s : Str) : Int × Str :=
  let r := sign (s.dropWhile isSpace)
  let ds := r.2.takeWhile Char.isDigit
  if ds = [] then (0, s)
  else
    let v : Int := if r.1 then -(digits ds : Int) else digits ds
    (max (-2 ^ 63) (min (2 ^ 63 - 1) v), r.2.dropWhile Char.isDigit)

/-- Conversion of a `long` to `int`. -/
def toInt32 (v : Int) : Int := (BitVec.ofInt 32 v).toInt

/-- `parse_int`, core/lli.c:44-52: error code and value. -/
def parseInt (s : Str) : Int × Int :=
  let r := strtol s
  (if r.2 ≠ [] then -22 else 0, toInt32 r.1)

/-! ## Options -/

/-- `enum print_mode` -/
inductive PrintMode where
  | bpf | detail | bpfDetail | dump
  deriving Repr, DecidableEq

/-- The members of `struct bpf_ir_opts` that can be set, core/include/linux/bpf_ir.h:86-128 -/
structure GOpts where
  force : Bool := false
  printMode : PrintMode := .bpf
  noCheck : Bool := false
  printk : Bool := false
  throwMsg : Bool := false
  printOnly : Bool := false
  fakeRun : Bool := false
  dotgraph : Bool := false
  verbose : Int := 1
  maxInsns : Int := 0
  maxIt : Int := 10
  deriving Repr, DecidableEq

/-- A number option: parse, check the range, set, core/aux/kern_utils.c:116-145 (where there is no upper limit, `hi` is the
greatest `int`). -/
def number (t : Str) (lo hi : Int) (o : GOpts) (set : Int → GOpts) : Int × GOpts :=
  let r := parseInt t
  if r.1 ≠ 0 then (r.1, o)
  else if r.2 < lo ∨ hi < r.2 then (-22, o)
  else (0, set r.2)

/-- `apply_global_opt`, core/aux/kern_utils.c:92-150 -/
def applyGlobal (o : GOpts) (s : Str) : Int × GOpts :=
  if s = "force".toList then (0, { o with force := true })
  else if s = "print_bpf".toList then (0, { o with printMode := .bpf })
  else if s = "print_dump".toList then (0, { o with printMode := .dump })
  else if s = "print_detail".toList then (0, { o with printMode := .detail })
  else if s = "no_prog_check".toList then (0, { o with noCheck := true })
  else if s = "print_bpf_detail".toList then (0, { o with printMode := .bpfDetail })
  else if s = "printk_log".toList then (0, { o with printk := true })
  else if s = "throw_msg".toList then (0, { o with throwMsg := true })
  else if s = "printonly".toList then (0, { o with printOnly := true })
  else if s = "fakerun".toList then (0, { o with fakeRun := true })
  else if s = "dotgraph".toList then (0, { o with dotgraph := true })
  else if s.take 8 = "verbose=".toList then number (s.drop 8) 0 10 o (fun v => { o with verbose := v })
  else if s.take 9 = "maxinsns=".toList then number (s.drop 9) 1 2147483647 o (fun v => { o with maxInsns := v })
  else if s.take 6 = "maxit=".toList then number (s.drop 6) 1 15 o (fun v => { o with maxIt := v })
  else (-22, o)

/-! ## Pass options -/

/-- Parameters of passes. -/
inductive Param where
  | counter (limit : Int) (accurate : Bool)
  | optim (noDeadElim noOpt : Bool)
  | other (n : Nat)
  deriving Repr, DecidableEq

/-- A `param_load` function: an error code, or the parameter. -/
abbrev Loader := Str → Out (Except Int Param)

/-- `struct builtin_pass_cfg` -/
structure Builtin where
  name : Str
  load : Option Loader
  param : Option Param
  enable : Bool
  enableCfg : Bool

/-- `struct custom_pass_cfg` -/
structure Custom where
  name : Str
  load : Option Loader
  param : Option Param
  enabled : Bool

structure Env where
  opts : GOpts
  builtin : List Builtin
  custom : List Custom

/-- The loop of `apply_pass_opt`, core/aux/kern_utils.c:13-35.  `par` is the parameter so far if a parenthesis was seen.
The last result tells whether the closing one was seen; `none`: `-EINVAL`. -/
def scan (name : Str) (par : Option Str) : Str → Out (Option (Str × Option Str × Bool))
  | [] => .ok (some (name, par, false))
  | c :: cs =>
    if 64 ≤ (par.getD []).length then .ok none
    else
      match par with
      | none =>
        if c = '(' then scan name (some []) cs
        else if 32 ≤ name.length then .ub
        else scan (name ++ [c]) none cs
      | some p =>
        if c = ')' then .ok (some (name, some p, true))
        else scan name (some (p ++ [c])) cs

/-- `param_load` if there is a parameter and a loader: `none` means that nothing is loaded. -/
def loadParam (load : Option Loader) (par : Option Str) : Out (Except Int (Option Param)) :=
  match load, par with
  | some f, some p =>
    match f p with
    | .ok (.ok v) => .ok (.ok (some v))
    | .ok (.error e) => .ok (.error e)
    | .err => .err
    | .crit => .crit
    | .ub => .ub
  | _, _ => .ok (.ok none)

/-- The search in the builtin configurations, core/aux/kern_utils.c:44-62: `none` if not found. -/
def applyBuiltin (name : Str) (par : Option Str) : List Builtin → Out (Option (Int × List Builtin))
  | [] => .ok none
  | b :: bs =>
    if b.name = name then
      match loadParam b.load par with
      | .ok (.error e) => .ok (some (e, b :: bs))
      | .ok (.ok v) => .ok (some (0, { b with param := v.or b.param, enableCfg := true, enable := false } :: bs))
      | .err => .err
      | .crit => .crit
      | .ub => .ub
    else
      match applyBuiltin name par bs with
      | .ok (some (r, bs')) => .ok (some (r, b :: bs'))
      | o => o

/-- The search in the custom passes, core/aux/kern_utils.c:66-84 -/
def applyCustom (name : Str) (par : Option Str) : List Custom → Out (Option (Int × List Custom))
  | [] => .ok none
  | b :: bs =>
    if b.name = name then
      match loadParam b.load par with
      | .ok (.error e) => .ok (some (e, b :: bs))
      | .ok (.ok v) => .ok (some (0, { b with param := v.or b.param, enabled := true } :: bs))
      | .err => .err
      | .crit => .crit
      | .ub => .ub
    else
      match applyCustom name par bs with
      | .ok (some (r, bs')) => .ok (some (r, b :: bs'))
      | o => o

/-- `apply_pass_opt`, core/aux/kern_utils.c:4-90 -/
def applyPass (e : Env) (s : Str) : Out (Int × Env) := do
  match ← scan [] none s with
  | none => .ok (-22, e)
  | some (name, par, closed) =>
    if par.isSome ∧ closed = false then .ok (-22, e)
    else if 32 ≤ name.length then .ub
    else
      match ← applyBuiltin name par e.builtin with
      | some (r, bs) => .ok (r, { e with builtin := bs })
      | none =>
        match ← applyCustom name par e.custom with
        | some (r, cs) => .ok (r, { e with custom := cs })
        | none => .ok (-22, e)

/-! ## Lists of options -/

/-- `GET_OPT` into a buffer of `n` characters, core/aux/kern_utils.c:167-173 (with `,`), core/passes/optimization.c:106-112
and core/passes/insn_counter_pass.c:137-143 (with a space): the option and the rest. -/
def getOpt (sep : Char) (n : Nat) (src : Str) : Out (Str × Str) :=
  let o := src.takeWhile (· != sep)
  if n ≤ o.length then .ub else .ok (o, src.dropWhile (· != sep))

/-- The loops of `bpf_ir_init_opts`, core/aux/kern_utils.c:197-224, and of the parameter loaders; `k` bounds the number
of rounds. -/
def loop {ε : Type} (sep : Char) (n : Nat) (apply : ε → Str → Out (Int × ε)) : Nat → ε → Str → Out (Int × ε)
  | _, e, [] => .ok (0, e)
  | 0, _, _ :: _ => .crit
  | k + 1, e, c :: cs => do
    let (o, rest) ← getOpt sep n (c :: cs)
    let r ← apply e o
    if r.1 < 0 then .ok r
    else
      match rest with
      | [] => .ok (0, r.2)
      | _ :: rest => loop sep n apply k r.2 rest

/-- `bpf_ir_init_opts`, core/aux/kern_utils.c:190-226: result and new options. -/
def initOpts (e : Env) (g p : Option Str) : Out (Int × Env) := do
  let g := g.getD []
  let p := p.getD []
  let r ← loop ',' 64 (fun e s => let r := applyGlobal e.opts s; Out.ok (r.1, { e with opts := r.2 })) g.length e g
  if r.1 < 0 then .ok r else loop ',' 64 applyPass p.length r.2 p

/-! ## Parameters of the builtin passes -/

/-- One sub-option of the instruction counter, core/passes/insn_counter_pass.c:164-173 -/
def counterOpt (st : Int × Bool) (s : Str) : Int × (Int × Bool) :=
  let acc := st.2 || s == "accurate".toList
  if s.take 6 = "limit=".toList then
    let r := parseInt (s.drop 6)
    (r.1, (r.2, acc))
  else (0, (st.1, acc))

/-- `load_param`, core/passes/insn_counter_pass.c:152-187 -/
def counterLoad : Loader := fun s => do
  let r ← loop ' ' 30 (fun st o => Out.ok (counterOpt st o)) s.length (1000000, false) s
  if r.1 ≠ 0 then .ok (.error r.1)
  else if 1000000 < r.2.1 then .ok (.error (-22))
  else .ok (.ok (.counter r.2.1 r.2.2))

/-- `load_param`, core/passes/optimization.c:121-150 -/
def optimLoad : Loader := fun s => do
  let r ← loop ' ' 30 (fun (st : Bool × Bool) o =>
    Out.ok (0, (st.1 || o == "no_dead_elim".toList, st.2 || o == "noopt".toList))) s.length (false, false) s
  .ok (.ok (.optim r.2.1 r.2.2))

end Verif.Opts
