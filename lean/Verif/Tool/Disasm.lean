import Verif.Tool.Model
/-!
# Model of the listing of programs (core/aux/disasm.c, core/bpf_ir.c:1852-1906, core/epasstool/print.c:5-17)

A string table that has no entry at an index gives a null pointer for `%s`, and an index behind the end of a table reads something else: both are `ub`.  `next` is the slot behind the
instruction in memory.  Messages go to the log one by one (`Drive.printToLog`); here they are put together.
-/
namespace Verif.Tool
open Verif Verif.Bpf Verif.Opts

/-! ## Numbers -/

/-- A digit in base 10 or 16. -/
def dig (d : Nat) : Char := Char.ofNat (if d < 10 then 48 + d else 87 + d)

/-- The digits of `n` in base `b`, at most `k` of them. -/
def num (b : Nat) : Nat → Nat → Str
  | 0, _ => []
  | k + 1, n => if n < b then [dig n] else num b k (n / b) ++ [dig (n % b)]

/-- `%u`, `%zu` -/
def dec (n : Nat) : Str := num 10 20 n

/-- `%x`, `%llx` -/
def hex (n : Nat) : Str := num 16 16 n

/-- `%02x` for a byte -/
def hex2 (n : Nat) : Str := if n < 16 then '0' :: hex n else hex n

/-- `%d` -/
def int (i : Int) : Str := if i < 0 then '-' :: dec i.natAbs else dec i.natAbs

/-- `%+d` -/
def intP (i : Int) : Str := if i < 0 then '-' :: dec i.natAbs else '+' :: dec i.natAbs

/-- `%4x`, `%8x` -/
def pad (k : Nat) (s : Str) : Str := List.replicate (k - s.length) ' ' ++ s

/-! ## Tables -/

/-- `bpf_alu_string`, core/aux/disasm.c:11-19 -/
def aluString : Nat → Out Str
  | 0x0 => .ok (str "+=") | 0x1 => .ok (str "-=") | 0x2 => .ok (str "*=") | 0x3 => .ok (str "/=")
  | 0x4 => .ok (str "|=") | 0x5 => .ok (str "&=") | 0x6 => .ok (str "<<=") | 0x7 => .ok (str ">>=")
  | 0x8 => .ok (str "neg") | 0x9 => .ok (str "%=") | 0xa => .ok (str "^=") | 0xb => .ok (str "=")
  | 0xc => .ok (str "s>>=") | 0xd => .ok (str "endian")
  | _ => .ub

/-- `bpf_alu_sign_string`, core/aux/disasm.c:21-24 -/
def signString : Nat → Out Str
  | 0x3 => .ok (str "s/=") | 0x9 => .ok (str "s%=")
  | _ => .ub

/-- `bpf_movsx_string`, core/aux/disasm.c:26-30 -/
def movsxString : Nat → Out Str
  | 0 => .ok (str "(s8)") | 1 => .ok (str "(s16)") | 3 => .ok (str "(s32)")
  | _ => .ub

/-- `bpf_atomic_alu_string`, core/aux/disasm.c:32-37 -/
def atomicString : Nat → Out Str
  | 0x0 => .ok (str "add") | 0x5 => .ok (str "and") | 0x4 => .ok (str "or") | 0xa => .ok (str "xor")
  | _ => .ub

/-- `bpf_ldst_string`, core/aux/disasm.c:39-44 -/
def ldstString : Nat → Out Str
  | 0 => .ok (str "u32") | 1 => .ok (str "u16") | 2 => .ok (str "u8") | 3 => .ok (str "u64")
  | _ => .ub

/-- `bpf_ldsx_string`, core/aux/disasm.c:46-50: three entries. -/
def ldsxString : Nat → Out Str
  | 0 => .ok (str "s32") | 1 => .ok (str "s16") | 2 => .ok (str "s8")
  | _ => .ub

/-- `bpf_jmp_string`, core/aux/disasm.c:52-60 -/
def jmpString : Nat → Out Str
  | 0x0 => .ok (str "jmp") | 0x1 => .ok (str "==") | 0x2 => .ok (str ">") | 0xa => .ok (str "<")
  | 0x3 => .ok (str ">=") | 0xb => .ok (str "<=") | 0x4 => .ok (str "&") | 0x5 => .ok (str "!=")
  | 0x6 => .ok (str "s>") | 0xc => .ok (str "s<") | 0x7 => .ok (str "s>=") | 0xd => .ok (str "s<=")
  | 0x8 => .ok (str "call") | 0x9 => .ok (str "exit")
  | _ => .ub

/-! ## One instruction -/

/-- `is_sdiv_smod`, core/aux/disasm.c:79-84 -/
def isSdivSmod (s : Slot) : Bool := (s.code.toNat / 16 = 3 ∨ s.code.toNat / 16 = 9) ∧ s.off = 1

/-- `is_movsx`, core/aux/disasm.c:86-90 -/
def isMovsx (s : Slot) : Bool := s.code.toNat / 16 = 0xb ∧ (s.off = 8 ∨ s.off = 16 ∨ s.off = 32)

/-- `__func_get_name`, core/aux/disasm.c:92-107, where the buffer starts with `old`; `__BPF_FUNC_MAX_ID` is 212. -/
def funcName (s : Slot) (old : Out Str) : Out Str :=
  if s.src = 0 ∧ 0 ≤ s.imm.toInt ∧ s.imm.toInt < 212 then .ok (str "fun_" ++ intP s.imm.toInt)
  else if s.src = 1 then .ok (intP s.imm.toInt)
  else if s.src = 2 then .ok (str "kernel-function")
  else old

/-- `%c%d` with `w` for the 32-bit class and `r` for the other. -/
def wr (w32 : Bool) (r : BitVec 4) : Str := (if w32 then 'w' else 'r') :: dec r.toNat

/-- `r%d` -/
def reg (r : BitVec 4) : Str := 'r' :: dec r.toNat

/-- ` %+d)` behind `(r%d`. -/
def place (r : BitVec 4) (off : BitVec 16) : Str := str "(" ++ (reg r ++ (str " " ++ (intP off.toInt ++ str ")")))

/-- The code in two digits, `(%02x) `. -/
def headOf (code : BitVec 8) : Str := str "(" ++ (hex2 code.toNat ++ str ") ")

/-- Arithmetic, core/aux/disasm.c:111-143 -/
def lineAlu (s : Slot) : Out Str :=
  let c := s.code.toNat
  let op := c / 16
  let x := c / 8 % 2
  let w := c % 8 == 4
  if op = 0xd then
    if c % 8 = 7 then .ok (headOf s.code ++ (reg s.dst ++ (str " = bswap" ++ (int s.imm.toInt ++ (str " " ++ (reg s.dst ++ str "\n"))))))
    else .ok (headOf s.code ++ (reg s.dst ++ (str " = " ++ ((if x = 1 then str "be" else str "le") ++ (int s.imm.toInt ++ (str " " ++ (reg s.dst ++ str "\n")))))))
  else if op = 8 then .ok (headOf s.code ++ (wr w s.dst ++ (str " = -" ++ (wr w s.dst ++ str "\n"))))
  else if x = 1 then do
    let o ← if isSdivSmod s then signString op else aluString op
    let m ← if isMovsx s then movsxString (s.off.toNat / 8 - 1) else .ok []
    .ok (headOf s.code ++ (wr w s.dst ++ (str " " ++ (o ++ (str " " ++ (m ++ (wr w s.src ++ str "\n")))))))
  else do
    let o ← if isSdivSmod s then signString op else aluString op
    .ok (headOf s.code ++ (wr w s.dst ++ (str " " ++ (o ++ (str " " ++ (int s.imm.toInt ++ str "\n"))))))

/-- Stores of registers and atomic operations, core/aux/disasm.c:144-194 -/
def lineStx (s : Slot) : Out Str :=
  let c := s.code.toNat
  let sz := c / 8 % 4
  let mode := c / 32
  if mode = 3 then do
    let z ← ldstString sz
    .ok (headOf s.code ++ (str "*(" ++ (z ++ (str " *)" ++ (place s.dst s.off ++ (str " = " ++ (reg s.src ++ str "\n")))))))
  else if mode = 6 ∧ (s.imm = 0 ∨ s.imm = 0x50 ∨ s.imm = 0x40 ∨ s.imm = 0xa0) then do
    let z ← ldstString sz
    let o ← aluString (s.imm.toNat % 256 / 16)
    .ok (headOf s.code ++ (str "lock *(" ++ (z ++ (str " *)" ++ (place s.dst s.off ++ (str " " ++ (o ++ (str " " ++ (reg s.src ++ str "\n")))))))))
  else if mode = 6 ∧ (s.imm = 1 ∨ s.imm = 0x51 ∨ s.imm = 0x41 ∨ s.imm = 0xa1) then do
    let o ← atomicString (s.imm.toNat % 256 / 16)
    let z ← ldstString sz
    .ok (headOf s.code ++ (reg s.src ++ (str " = atomic" ++ ((if sz = 3 then str "64" else []) ++ (str "_fetch_" ++ (o ++ (str "((" ++ (z ++ (str " *)" ++ (place s.dst s.off ++ (str ", " ++ (reg s.src ++ str ")\n"))))))))))))
  else if mode = 6 ∧ s.imm = 0xf1 then do
    let z ← ldstString sz
    .ok (headOf s.code ++ (str "r0 = atomic" ++ ((if sz = 3 then str "64" else []) ++ (str "_cmpxchg((" ++ (z ++ (str " *)" ++ (place s.dst s.off ++ (str ", r0, " ++ (reg s.src ++ str ")\n")))))))))
  else if mode = 6 ∧ s.imm = 0xe1 then do
    let z ← ldstString sz
    .ok (headOf s.code ++ (reg s.src ++ (str " = atomic" ++ ((if sz = 3 then str "64" else []) ++ (str "_xchg((" ++ (z ++ (str " *)" ++ (place s.dst s.off ++ (str ", " ++ (reg s.src ++ str ")\n"))))))))))
  else .ok (str "BUG_" ++ (hex2 c ++ str "\n"))

/-- Stores of constants, core/aux/disasm.c:195-207 -/
def lineSt (s : Slot) : Out Str :=
  let c := s.code.toNat
  let sz := c / 8 % 4
  let mode := c / 32
  if mode = 3 then do
    let z ← ldstString sz
    .ok (headOf s.code ++ (str "*(" ++ (z ++ (str " *)" ++ (place s.dst s.off ++ (str " = " ++ (int s.imm.toInt ++ str "\n")))))))
  else if mode = 6 then .ok (headOf s.code ++ str "nospec\n")
  else .ok (str "BUG_st_" ++ (hex2 c ++ str "\n"))

/-- Loads, core/aux/disasm.c:208-220 -/
def lineLdx (s : Slot) : Out Str :=
  let c := s.code.toNat
  let sz := c / 8 % 4
  let mode := c / 32
  if mode ≠ 3 ∧ mode ≠ 4 then .ok (str "BUG_ldx_" ++ (hex2 c ++ str "\n"))
  else do
    let z ← if mode = 3 then ldstString sz else ldsxString sz
    .ok (headOf s.code ++ (reg s.dst ++ (str " = *(" ++ (z ++ (str " *)" ++ (place s.src s.off ++ str "\n"))))))

/-- Wide loads, core/aux/disasm.c:221-251 -/
def lineLd (s : Slot) (next : Option Slot) : Out Str :=
  let c := s.code.toNat
  let sz := c / 8 % 4
  let mode := c / 32
  if mode = 1 then do
    let z ← ldstString sz
    .ok (headOf s.code ++ (str "r0 = *(" ++ (z ++ (str " *)skb[" ++ (int s.imm.toInt ++ str "]\n")))))
  else if mode = 2 then do
    let z ← ldstString sz
    .ok (headOf s.code ++ (str "r0 = *(" ++ (z ++ (str " *)skb[" ++ (reg s.src ++ (str " + " ++ (int s.imm.toInt ++ str "]\n")))))))
  else if mode = 0 ∧ sz = 3 then
    match next with
    | none => .ub
    | some t => .ok (headOf s.code ++ (reg s.dst ++ (str " = 0x" ++ (hex (t.imm ++ s.imm).toNat ++ str " (imm64 ld)\n"))))
  else .ok (str "BUG_ld_" ++ (hex2 c ++ str "\n"))

/-- Jumps and calls, core/aux/disasm.c:252-298 -/
def lineJmp (s : Slot) : Out Str :=
  let c := s.code.toNat
  let op := c / 16
  let x := c / 8 % 2
  let w := c % 8 == 6
  if op = 8 then
    if s.src = 6 then .ok (headOf s.code ++ (str "call efun#" ++ (int s.imm.toInt ++ (str " (#arg: " ++ (dec s.dst.toNat ++ str ")\n")))))
    else if s.src = 1 then do
      let n ← funcName s .ub
      .ok (headOf s.code ++ (str "call pc" ++ (n ++ str "\n")))
    else do
      let n ← funcName s (.ok (str "unknown"))
      .ok (headOf s.code ++ (str "call " ++ (n ++ (str "#" ++ (int s.imm.toInt ++ str "\n")))))
  else if c = 0x05 then .ok (headOf s.code ++ (str "goto pc" ++ (intP s.off.toInt ++ str "\n")))
  else if c = 0x06 then .ok (headOf s.code ++ (str "gotol pc" ++ (intP s.imm.toInt ++ str "\n")))
  else if c = 0x95 then .ok (headOf s.code ++ str "exit\n")
  else if x = 1 then do
    let o ← jmpString op
    .ok (headOf s.code ++ (str "if " ++ (wr w s.dst ++ (str " " ++ (o ++ (str " " ++ (wr w s.src ++ (str " goto pc" ++ (intP s.off.toInt ++ str "\n")))))))))
  else do
    let o ← jmpString op
    .ok (headOf s.code ++ (str "if " ++ (wr w s.dst ++ (str " " ++ (o ++ (str " 0x" ++ (hex s.imm.toNat ++ (str " goto pc" ++ (intP s.off.toInt ++ str "\n")))))))))

/-- `bpf_ir_print_bpf_insn`, core/aux/disasm.c:109-303 (there is no other class) -/
def line (s : Slot) (next : Option Slot) : Out Str :=
  match s.code.toNat % 8 with
  | 4 | 7 => lineAlu s
  | 3 => lineStx s
  | 2 => lineSt s
  | 1 => lineLdx s
  | 0 => lineLd s next
  | _ => lineJmp s

/-- The line for an instruction of a block, `print_pre_ir_cfg`, core/bpf_ir.c:569-580 (with verbose level 3): the instruction is copied to a variable, and behind it is nothing. -/
def blockLine (s : Slot) : Out Str := line s none

/-- `print_bpf_insn_simple`, core/bpf_ir.c:1853-1864 -/
def simple (s : Slot) : Str :=
  pad 4 (hex s.code.toNat) ++ (str "       " ++ (hex s.src.toNat ++ (str "       " ++ (hex s.dst.toNat ++ (str " " ++ (pad 8 (hex s.imm.toNat) ++
    ((if s.off.toInt < 0 then str " -" else str "  ") ++ (pad 8 (hex s.off.toInt.natAbs) ++ str "\n"))))))))

/-! ## A program -/

/-- `env->opts.print_mode` -/
inductive PrintMode where
  | bpf | detail | bpfDetail | dump
  deriving DecidableEq

/-- The messages of one round of the loop, core/bpf_ir.c:1891-1904 -/
def entry (m : PrintMode) (i : Nat) (s : Slot) (next : Option Slot) : Out (List Str) :=
  if s.code = 0 then .ok []
  else do
    let l ← if m = .bpf ∨ m = .bpfDetail then (line s next).bind fun l => .ok [l] else .ok []
    .ok ((str "[" ++ (dec i ++ str "] ")) :: l ++ if m = .detail ∨ m = .bpfDetail then [simple s] else [])

/-- The loop, core/bpf_ir.c:1891-1905, from slot `i` on. -/
def entries (m : PrintMode) : Nat → List Slot → Out (List Str)
  | _, [] => .ok []
  | i, s :: ss => do
    let e ← entry m i s ss.head?
    let es ← entries m (i + 1) ss
    .ok (e ++ es)

/-- `print_bpf_prog`, core/bpf_ir.c:1877-1906, for fewer than 2^32 slots: what is given to the log.  `epasstool print` shows a program as in mode `bpf` (core/epasstool/print.c:5-17, printlog.c:4-16). -/
def listing (m : PrintMode) (P : List Slot) : Out (List Str) :=
  match m with
  | .dump => .ok (P.map fun s => llu (toU64 s) ++ ['\n'])
  | .bpf => entries .bpf 0 P
  | .detail => (entries .detail 0 P).bind fun l => .ok (str "      op     src     dst      imm       off\n" :: l)
  | .bpfDetail => (entries .bpfDetail 0 P).bind fun l => .ok (str "  op     src     dst      imm       off\n" :: l)

end Verif.Tool
