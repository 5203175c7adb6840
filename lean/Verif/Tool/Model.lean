import Verif.Spec.Bpf
import Verif.Opts.Model
/-!
# Model of the tool (core/epasstool/epasstool.c, read.c, readlog.c)

Strings and files are lists of characters.  What a run of ePass does with one program is a parameter here (`Pipe`, `Drive`).
Not modelled: libbpf (an object file is the list of its programs), messages, freeing.
-/
namespace Verif.Tool
open Verif Verif.Bpf Verif.Opts

/-! ## The log format -/

/-- `memcpy(&data, insn, sizeof(struct bpf_insn))` on a little-endian machine, core/epasstool/read.c:9-11; the first of the
two registers is in the lower half of its byte. -/
def toU64 (s : Slot) : BitVec 64 := s.imm ++ s.off ++ s.src ++ s.dst ++ s.code

/-- `memcpy(&tmp, &s, sizeof(struct bpf_insn))`, core/epasstool/readlog.c:28-29 -/
def ofU64 (w : BitVec 64) : Slot where
  code := w.extractLsb' 0 8
  dst := w.extractLsb' 8 4
  src := w.extractLsb' 12 4
  off := w.extractLsb' 16 16
  imm := w.extractLsb' 32 32

/-- Decimal digits of `n`, at most `k` of them. -/
def decimal : Nat → Nat → Str
  | 0, _ => []
  | k + 1, n => if n < 10 then [Char.ofNat (48 + n)] else decimal k (n / 10) ++ [Char.ofNat (48 + n % 10)]

/-- `%llu`: a 64-bit number has at most 20 digits. -/
def llu (w : BitVec 64) : Str := decimal 20 w.toNat

/-- `print_bpf_prog_dump`, core/epasstool/read.c:5-14.  The counter has 32 bits: with 2^32 or more instructions the loop does
not end, which is `none`. -/
def dump (P : List Slot) : Option Str :=
  if P.length < 2 ^ 32 then some (P.flatMap fun s => llu (toU64 s) ++ ['\n']) else none

/-- `strtoull(s, NULL, 10)` -/
def strtoull (s : Str) : BitVec 64 :=
  let r := sign (s.dropWhile isSpace)
  let v := digits (r.2.takeWhile Char.isDigit)
  if 2 ^ 64 ≤ v then BitVec.ofNat 64 (2 ^ 64 - 1) else if r.1 then -(BitVec.ofNat 64 v) else BitVec.ofNat 64 v

/-- `fgets` with room for `k` characters (and the final NUL): the line and the rest of the file. -/
def fgets : Nat → Str → Str × Str
  | 0, cs => ([], cs)
  | _, [] => ([], [])
  | k + 1, c :: cs =>
    if c = '\n' then ([c], cs)
    else
      let r := fgets k cs
      (c :: r.1, r.2)

/-- The loop of `epass_readlog`, core/epasstool/readlog.c:23-32 (the same as in `epass_printlog`, core/epasstool/printlog.c:33-43);
the buffer has 256 bytes.  `n` bounds the number of lines. -/
def readLines : Nat → Str → List Slot
  | 0, _ => []
  | _, [] => []
  | n + 1, c :: cs =>
    let r := fgets 255 (c :: cs)
    if r.1.head? = some '\n' then [] else ofU64 (strtoull r.1) :: readLines n r.2

/-- The program `epass_readlog` gives to `epass_run`; a file has no more lines than characters. -/
def readLog (file : Str) : List Slot := readLines file.length file

/-- `is_elf_file`, core/epasstool/epasstool.c:78-92 -/
def isElf (file : Str) : Bool := file.take 4 = ['\x7f', 'E', 'L', 'F']

/-! ## The command line -/

/-- `struct user_opts`, core/epasstool/epasstool.h:7-29; `secOnly` is `output_format == OUTPUT_SEC_ONLY`. -/
structure UOpts where
  gopt : Str := []
  popt : Str := []
  prog : Str := []
  out : Str := []
  sec : Str := []
  noCompile : Bool := false
  autoSec : Bool := true
  secOnly : Bool := false
  print : Bool := false
  deriving DecidableEq

/-- `strcpy` to a buffer of 64 bytes. -/
def cpy (v : Str) : Out Str := if v.length < 64 then .ok v else .ub

def str (s : String) : Str := s.toList

/-- The loops of `parse_cli`, core/epasstool/epasstool.c:115-175 (`read`) and 180-217 (`print`, which knows fewer options); `none`
is `usage`, which ends the program. -/
def parseArgs : List Str → UOpts → Out (Option UOpts)
  | [], o => if o.prog = [] then .ok none else .ok (some o)
  | a :: rest, o =>
    if !o.print && (a = str "--pass-only" || a = str "-P") then parseArgs rest { o with noCompile := true }
    else if a = str "--gopt" then
      match rest with
      | [] => .ok none
      | v :: rest => do
        let v ← cpy v
        parseArgs rest { o with gopt := v }
    else if a = str "--popt" then
      match rest with
      | [] => .ok none
      | v :: rest => do
        let v ← cpy v
        parseArgs rest { o with popt := v }
    else if a = str "--sec" || a = str "-s" then
      match rest with
      | [] => .ok none
      | v :: rest => do
        let v ← cpy v
        parseArgs rest { o with autoSec := false, sec := v }
    else if !o.print && a = str "-o" then
      match rest with
      | [] => .ok none
      | v :: rest => do
        let v ← cpy v
        parseArgs rest { o with out := v }
    else if !o.print && a = str "-F" then
      match rest with
      | [] => .ok none
      | v :: rest =>
        if v = str "sec" then parseArgs rest { o with secOnly := true }
        else if v = str "log" then parseArgs rest { o with secOnly := false }
        else .ok none
    else if o.prog = [] then do
      let v ← cpy a
      parseArgs rest { o with prog := v }
    else .ok none

/-- `parse_cli`, core/epasstool/epasstool.c:94-223, on the arguments behind the name of the tool. -/
def parseCli : List Str → Out (Option UOpts)
  | [] => .ok none
  | a :: rest =>
    if a = str "read" then parseArgs rest {}
    else if a = str "print" then parseArgs rest { print := true }
    else .ok none

/-! ## Running -/

/-- What ePass does with one program: `opts` is the value of `bpf_ir_init_opts`, `lift` that of `env->err` after `bpf_ir_lift`, `passes`
after `bpf_ir_run`, `auto` that after `bpf_ir_autorun` with the program it leaves, `opens` tells whether the output file can be
opened. -/
structure Sys where
  opts : Str → Str → Int
  lift : List Slot → Int
  passes : List Slot → Int
  auto : List Slot → Int × List Slot
  opens : Bool

/-- What a run leaves behind: the value returned, and what is in the output file (`none`: not written; a file in section format
is a list of slots). -/
structure Ran where
  code : Int
  file : Option (Str ⊕ List Slot)
  deriving DecidableEq

/-- `epass_run`, core/epasstool/read.c:16-79 (`uopts.bpfprog` is NULL in the tool).  After `--pass-only` the program is the one that was
read; `CHECK_ERR(0)` returns 0 if lifting failed.  The dump is taken to end. -/
def epassRun (S : Sys) (o : UOpts) (old : Option (Str ⊕ List Slot)) (P : List Slot) : Ran :=
  if S.opts o.gopt o.popt ≠ 0 then ⟨S.opts o.gopt o.popt, old⟩
  else if o.noCompile && S.lift P ≠ 0 then ⟨0, old⟩
  else
    let r := if o.noCompile then (S.passes P, P) else S.auto P
    if r.1 ≠ 0 then ⟨r.1, old⟩
    else if o.out = [] then ⟨0, old⟩
    else if S.opens then ⟨0, some (if o.secOnly then .inr r.2 else .inl ((dump r.2).getD []))⟩
    else ⟨1, old⟩

/-- The loop of `epass_read`, core/epasstool/read.c:105-119. -/
def readAll (S : Sys) (o : UOpts) : List (List Slot) → Ran → Ran
  | [], r => r
  | P :: Ps, r => readAll S o Ps (epassRun S o r.file P)

/-- `epass_read`, core/epasstool/read.c:81-126, for the programs of an object file with their names.  Without any program, and the
section not given, `bpf_program__name(NULL)` is called; names of 64 characters and more do not fit. -/
def epassRead (S : Sys) (o : UOpts) (obj : List (Str × List Slot)) : Out Ran :=
  if o.autoSec then
    if obj = [] ∨ ∃ p ∈ obj, 64 ≤ p.1.length then .ub
    else .ok (readAll S o (obj.map (·.2)) ⟨0, none⟩)
  else
    match obj.find? (fun p => p.1 = o.sec) with
    | none => .ok ⟨1, none⟩
    | some p => .ok (readAll S o [p.2] ⟨0, none⟩)

/-- `epass_readlog`, core/epasstool/readlog.c:5-41, for a file that can be opened. -/
def epassReadlog (S : Sys) (o : UOpts) (file : Str) : Ran := epassRun S o none (readLog file)

end Verif.Tool
