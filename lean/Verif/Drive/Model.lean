import Verif.Base
/-!
# Model of the pass manager, the driver and the log (core/bpf_ir.c:1777-1850, 1941-1991, core/ir_helper.c:738-786)

The passes themselves, lifting and code generation are parameters here (they are modelled elsewhere); `σ` is the
whole state (`env` and the function), `err` reads `env->err`.
-/
namespace Verif.Drive
open Verif

/-! ## Passes -/

/-- `struct function_pass`, core/include/linux/bpf_ir.h:1016-1023.  A parameter is a pointer, `none` if NULL. -/
structure Pass (σ : Type) where
  name : String
  enabled : Bool
  force : Bool
  act : Option Nat → σ → σ

/-- `struct builtin_pass_cfg`, core/include/linux/bpf_ir.h:1045-1058 (without the loaders) -/
structure Cfg where
  name : String
  param : Option Nat
  enable : Bool

/-- `struct custom_pass_cfg`, core/include/linux/bpf_ir.h:1031-1040; `check` is `none` if `check_apply` is NULL. -/
structure Custom (σ : Type) where
  pass : Pass σ
  param : Option Nat
  check : Option (Int → Bool)

/-- What the pass manager needs to know about the state: `env->err` and what is done after each pass
(`bpf_ir_pass_postprocess`, `print_ir_prog`). -/
structure Sys (σ : Type) where
  err : σ → Bool
  post : σ → σ

variable {σ : Type}

/-- `run_single_pass`, core/bpf_ir.c:1777-1791 -/
def runSingle (S : Sys σ) (p : Pass σ) (prm : Option Nat) (s : σ) : σ :=
  let s := p.act prm s
  if S.err s then s else S.post s

/-- One round of `bpf_ir_run_passes`, core/bpf_ir.c:1797-1817: the pass that was run with its parameter, if any, and
the new state. -/
def runOne (S : Sys σ) (cfg : List Cfg) (p : Pass σ) (s : σ) : List (Pass σ × Option Nat) × σ :=
  match cfg.find? (fun c => c.name == p.name) with
  | some c => if p.force || c.enable then ([(p, c.param)], runSingle S p c.param s) else ([], s)
  | none => if p.enabled then ([(p, none)], runSingle S p none s) else ([], s)

/-- `bpf_ir_run_passes`, core/bpf_ir.c:1793-1820 -/
def runPasses (S : Sys σ) (cfg : List Cfg) : List (Pass σ) → σ → List (Pass σ × Option Nat) × σ
  | [], s => ([], s)
  | p :: ps, s =>
    let r := runOne S cfg p s
    if S.err r.2 then r
    else
      let q := runPasses S cfg ps r.2
      (r.1 ++ q.1, q.2)

/-- `check_apply`, core/bpf_ir.c:1828-1830, 1838 -/
def Custom.applies (c : Custom σ) (verr : Int) : Bool :=
  match c.check with
  | some f => f verr
  | none => true

/-- The loop over custom passes, core/bpf_ir.c:1826-1846; the last component is true if the function returns. -/
def runCustom (S : Sys σ) (verr : Int) : List (Custom σ) → σ → List (Pass σ × Option Nat) × σ × Bool
  | [], s => ([], s, false)
  | c :: cs, s =>
    if c.pass.enabled then
      let r := if c.applies verr then ([(c.pass, c.param)], runSingle S c.pass c.param s) else ([], s)
      if S.err r.2 then (r.1, r.2, true)
      else
        let q := runCustom S verr cs r.2
        (r.1 ++ q.1, q.2)
    else runCustom S verr cs s

/-- `bpf_ir_run`, core/bpf_ir.c:1822-1850.  There is no check of `env->err` after the pre-passes. -/
def run (S : Sys σ) (cfg : List Cfg) (verr : Int) (pre : List (Pass σ)) (cs : List (Custom σ)) (post : List (Pass σ)) (s : σ) :
    List (Pass σ × Option Nat) × σ :=
  let a := runPasses S cfg pre s
  let b := runCustom S verr cs a.2
  if b.2.2 then (a.1 ++ b.1, b.2.1)
  else
    let c := runPasses S cfg post b.2.1
    (a.1 ++ b.1 ++ c.1, c.2)

/-! ## The driver -/

/-- The fields of `struct bpf_ir_env` that `bpf_ir_autorun` is about. -/
structure Env (ι : Type) where
  insns : List ι
  err : Bool
  executed : Bool

structure Opts where
  maxInsns : Nat
  printOnly : Bool
  fakeRun : Bool

/-- The phases: `none` is an error.  `lift` is `bpf_ir_lift`, `passes` is `bpf_ir_run`, `gen` is `bpf_ir_compile` up to
and including `relocate`, which also fixes the number of instructions; `alloc` tells whether the allocation of the new
array in `synthesize` succeeds. -/
structure Phases (ι φ γ : Type) where
  lift : List ι → Option φ
  passes : φ → Option φ
  gen : φ → Option γ
  alloc : γ → Bool
  synth : γ → List ι

variable {ι φ γ : Type}

/-- `bpf_ir_autorun`, core/bpf_ir.c:1941-1991.  When the allocation fails the array pointer is overwritten by NULL
(core/ir_cg_norm.c:1284): the bytecode is lost. -/
def autorun (P : Phases ι φ γ) (o : Opts) (e : Env ι) : Env ι :=
  let e := { e with executed := true }
  if o.maxInsns > 0 ∧ e.insns.length > o.maxInsns then { e with err := true }
  else if o.printOnly then e
  else
    match P.lift e.insns with
    | none => { e with err := true }
    | some f =>
      match P.passes f with
      | none => { e with err := true }
      | some f =>
        match P.gen f with
        | none => { e with err := true }
        | some g =>
          if P.alloc g then
            let e := { e with insns := P.synth g }
            if o.fakeRun then { e with err := true } else e
          else { e with insns := [], err := true }

/-! ## The log -/

/-- `BPF_IR_LOG_SIZE`, core/include/linux/bpf_ir.h:60 -/
def logSize : Nat := 100000

/-- `env->log` and `env->log_pos`.  The buffer is a function; the model makes every access outside it `ub`. -/
structure Log where
  buf : Nat → Char
  pos : Nat

/-- `memcpy(env->log + env->log_pos, buf, len)`: bytes one by one. -/
def copy (b : Nat → Char) : Nat → List Char → Out (Nat → Char)
  | _, [] => .ok b
  | p, c :: cs => if logSize ≤ p then .ub else copy (fun i => if i = p then c else b i) (p + 1) cs

/-- `bpf_ir_print_to_log`, core/ir_helper.c:738-758, for a message already formatted (`vsprintf` writes it and a NUL
to a buffer of 200 bytes).  `level` and `verbose` decide whether anything is done. -/
def print (verbose level : Int) (m : List Char) (l : Log) : Out Log :=
  if verbose < level then .ok l
  else if 200 ≤ m.length then .ub
  else
    let s := m.takeWhile (· != '\x00')
    let p := if logSize ≤ l.pos + s.length then 0 else l.pos
    match copy l.buf p s with
    | .ok b => .ok ⟨b, p + s.length⟩
    | .err => .err
    | .crit => .crit
    | .ub => .ub

/-- The inner loop of `bpf_ir_print_log_dbg`, core/ir_helper.c:775-781: line and rest; `k` is `1000 - j`. -/
def line : Nat → List Char → List Char × List Char
  | 0, cs => ([], cs)
  | _, [] => ([], [])
  | k + 1, c :: cs =>
    if c = '\n' then ([c], cs)
    else
      let r := line k cs
      (c :: r.1, r.2)

/-- The outer loop, core/ir_helper.c:774-784: writing the NUL at `line[1000]` is outside the buffer. -/
def lines : Nat → List Char → Out (List (List Char))
  | _, [] => .ok []
  | 0, _ => .crit
  | n + 1, c :: cs =>
    let r := line 1000 (c :: cs)
    if 1000 ≤ r.1.length then .ub
    else
      match lines n r.2 with
      | .ok ls => .ok (r.1 :: ls)
      | .err => .err
      | .crit => .crit
      | .ub => .ub

/-- `bpf_ir_print_log_dbg`, core/ir_helper.c:761-786: the lines printed between the marks. -/
def dump (verbose : Int) (l : Log) : Out (List (List Char)) :=
  if verbose = 0 then .ok []
  else if l.pos = 0 then .ok []
  else if logSize ≤ l.pos then .ub
  else lines l.pos ((List.range l.pos).map l.buf)

end Verif.Drive
