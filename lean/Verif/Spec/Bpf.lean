/-!
# Specification: the BPF machine

An independent, executable description of the eBPF instruction set as documented by the Linux kernel
(Documentation/bpf/standardization/instruction-set.rst) for a little-endian host.  It knows nothing
about ePass.  Registers are r0..r10, memory is a flat byte memory, helper calls are an arbitrary
oracle that may depend on everything that happened before.
-/
namespace Verif.Bpf

/-- One 8-byte instruction slot (`struct bpf_insn`). -/
structure Slot where
  code : BitVec 8
  dst : BitVec 4
  src : BitVec 4
  off : BitVec 16
  imm : BitVec 32
  deriving Repr, DecidableEq, Inhabited

inductive AluOp where
  | add | sub | mul | div | or | and | lsh | rsh | mod | xor | mov | arsh
  deriving Repr, DecidableEq, Inhabited

inductive Cond where
  | eq | gt | ge | set | ne | sgt | sge | lt | le | slt | sle
  deriving Repr, DecidableEq, Inhabited

/-- Access widths in bytes. -/
inductive Size where
  | b | h | w | dw
  deriving Repr, DecidableEq, Inhabited

def Size.bytes : Size → Nat
  | .b => 1 | .h => 2 | .w => 4 | .dw => 8

inductive Src where
  | reg (r : BitVec 4)
  | imm (i : BitVec 32)
  deriving Repr, DecidableEq, Inhabited

/-- Decoded instructions. `w64` selects the 64-bit (true) or 32-bit (false) form. -/
inductive Instr where
  | alu (w64 : Bool) (op : AluOp) (dst : BitVec 4) (src : Src)
  | neg (w64 : Bool) (dst : BitVec 4)
  | swap (be : Bool) (dst : BitVec 4) (width : BitVec 32)
  | ldimm (dst kind : BitVec 4)
  | ldx (sx : Bool) (sz : Size) (dst src : BitVec 4) (off : BitVec 16)
  | st (sz : Size) (dst : BitVec 4) (off : BitVec 16) (imm : BitVec 32)
  | stx (sz : Size) (dst src : BitVec 4) (off : BitVec 16)
  | ja (off : BitVec 16)
  | jcc (w64 : Bool) (c : Cond) (dst : BitVec 4) (src : Src) (off : BitVec 16)
  | call (fid : BitVec 32)
  | exit
  deriving Repr, DecidableEq, Inhabited

/-- ALU operation code (upper four bits); `0x8` is NEG and `0xd` is END, decoded separately. -/
def aluOp (n : Nat) : Option AluOp :=
  match n with
  | 0x0 => some .add | 0x1 => some .sub | 0x2 => some .mul | 0x3 => some .div
  | 0x4 => some .or | 0x5 => some .and | 0x6 => some .lsh | 0x7 => some .rsh
  | 0x9 => some .mod | 0xa => some .xor | 0xb => some .mov | 0xc => some .arsh
  | _ => none

def condOp (n : Nat) : Option Cond :=
  match n with
  | 0x1 => some .eq | 0x2 => some .gt | 0x3 => some .ge | 0x4 => some .set
  | 0x5 => some .ne | 0x6 => some .sgt | 0x7 => some .sge
  | 0xa => some .lt | 0xb => some .le | 0xc => some .slt | 0xd => some .sle
  | _ => none

def sizeOf (n : Nat) : Size :=
  match n with
  | 0 => .w | 1 => .h | 2 => .b | _ => .dw

/-- Decode one slot: class is bits 0-2, source bit is bit 3, operation is bits 4-7; for memory
classes size is bits 3-4 and mode is bits 5-7.  Arithmetic with a nonzero offset (signed division,
sign-extending moves) and calls with a nonzero source register (program-local and kernel functions) are
not part of this machine. -/
def decode (s : Slot) : Option Instr :=
  let c := s.code.toNat
  let cls := c % 8
  let x := c / 8 % 2
  let op := c / 16
  let src : Src := if x = 1 then .reg s.src else .imm s.imm
  let sz := sizeOf (c / 8 % 4)
  let mode := c / 32
  match cls with
  | 0 => if c = 0x18 then some (.ldimm s.dst s.src) else none
  | 1 => if mode = 3 then some (.ldx false sz s.dst s.src s.off)
         else if mode = 4 then some (.ldx true sz s.dst s.src s.off) else none
  | 2 => if mode = 3 then some (.st sz s.dst s.off s.imm) else none
  | 3 => if mode = 3 then some (.stx sz s.dst s.src s.off) else none
  | 4 => if s.off ≠ 0 then none
         else if op = 8 then (if x = 0 then some (.neg false s.dst) else none)
         else if op = 0xd then some (.swap (x == 1) s.dst s.imm)
         else (aluOp op).map (fun o => .alu false o s.dst src)
  | 5 => if op = 0 then (if x = 0 then some (.ja s.off) else none)
         else if op = 8 then (if x = 0 ∧ s.src = 0 then some (.call s.imm) else none)
         else if op = 9 then (if x = 0 then some .exit else none)
         else (condOp op).map (fun o => .jcc true o s.dst src s.off)
  | 6 => (condOp op).map (fun o => .jcc false o s.dst src s.off)
  | _ => if s.off ≠ 0 then none
         else if op = 8 then (if x = 0 then some (.neg true s.dst) else none)
         else (aluOp op).map (fun o => .alu true o s.dst src)

/-! ## Values -/

/-- ALU operations at width `w`.  Division by zero yields 0 and modulo by zero leaves the dividend,
as documented; shift counts are taken modulo the width. -/
def aluW (w : Nat) (op : AluOp) (x y : BitVec w) : BitVec w :=
  match op with
  | .add => x + y
  | .sub => x - y
  | .mul => x * y
  | .div => if y = 0 then 0 else x.udiv y
  | .mod => if y = 0 then x else x.umod y
  | .or => x ||| y
  | .and => x &&& y
  | .xor => x ^^^ y
  | .lsh => x <<< (y.toNat % w)
  | .rsh => x >>> (y.toNat % w)
  | .arsh => x.sshiftRight (y.toNat % w)
  | .mov => y

/-- The 64-bit result of an ALU operation: 32-bit operations use the low halves and zero-extend. -/
def alu (w64 : Bool) (op : AluOp) (x y : BitVec 64) : BitVec 64 :=
  if w64 then aluW 64 op x y
  else (aluW 32 op (x.setWidth 32) (y.setWidth 32)).setWidth 64

def condW (w : Nat) (c : Cond) (x y : BitVec w) : Bool :=
  match c with
  | .eq => x == y
  | .ne => x != y
  | .gt => y.ult x
  | .ge => y.ule x
  | .lt => x.ult y
  | .le => x.ule y
  | .sgt => y.slt x
  | .sge => y.sle x
  | .slt => x.slt y
  | .sle => x.sle y
  | .set => (x &&& y) != 0

/-- Does the comparison hold? -/
def cond (w64 : Bool) (c : Cond) (x y : BitVec 64) : Bool :=
  if w64 then condW 64 c x y else condW 32 c (x.setWidth 32) (y.setWidth 32)

def negate (w64 : Bool) (x : BitVec 64) : BitVec 64 :=
  if w64 then -x else (-(x.setWidth 32)).setWidth 64

/-- Reverse the order of the low `n` bytes of `x`, clearing the others. -/
def bswap : Nat → BitVec 64 → BitVec 64
  | 0, _ => 0
  | n + 1, x => ((x.setWidth 8).setWidth 64 <<< (8 * n)) ||| bswap n (x >>> 8)

/-- `le16/32/64` and `be16/32/64` on a little-endian host; `none` for other widths. -/
def swapVal (be : Bool) (width : BitVec 32) (x : BitVec 64) : Option (BitVec 64) :=
  if width = 16 then some (if be then bswap 2 x else (x.setWidth 16).setWidth 64)
  else if width = 32 then some (if be then bswap 4 x else (x.setWidth 32).setWidth 64)
  else if width = 64 then some (if be then bswap 8 x else x)
  else none

/-! ## State -/

abbrev Mem := BitVec 64 → BitVec 8

/-- Little-endian load of `n` bytes, zero-extended. -/
def load : Nat → Mem → BitVec 64 → BitVec 64
  | 0, _, _ => 0
  | n + 1, m, a => (m a).setWidth 64 ||| (load n m (a + 1) <<< 8)

/-- Little-endian store of the low `n` bytes of `v`. -/
def store : Nat → Mem → BitVec 64 → BitVec 64 → Mem
  | 0, m, _, _ => m
  | n + 1, m, a, v => store n (fun b => if b = a then v.setWidth 8 else m b) (a + 1) (v >>> 8)

/-- Sign-extend the low `n` bytes. -/
def sextBytes (n : Nat) (v : BitVec 64) : BitVec 64 := (v.setWidth (8 * n)).signExtend 64

/-- A helper call that has been made. -/
structure Event where
  fid : BitVec 32
  args : List (BitVec 64)
  deriving DecidableEq

structure St where
  reg : Nat → BitVec 64
  mem : Mem
  trace : List Event

/-- The result of a helper call: r0, memory, and the values left in r1..r5. -/
structure CallRes where
  ret : BitVec 64
  mem : Mem
  clob : Nat → BitVec 64

/-- What the surrounding kernel provides: the meaning of pseudo 64-bit immediates (map pointers etc.)
and of helper calls, which may depend on the whole call history. -/
structure World where
  ldimm : Nat → BitVec 64 → BitVec 64
  call : List Event → BitVec 32 → List (BitVec 64) → Mem → CallRes

def St.set (σ : St) (r : Nat) (v : BitVec 64) : St :=
  { σ with reg := fun i => if i = r then v else σ.reg i }

def Src.val (σ : St) : Src → BitVec 64
  | .reg r => σ.reg r.toNat
  | .imm i => i.signExtend 64

/-- r1..r5 -/
def St.args (σ : St) : List (BitVec 64) := [σ.reg 1, σ.reg 2, σ.reg 3, σ.reg 4, σ.reg 5]

/-- Effect of a helper call. -/
def doCall (W : World) (fid : BitVec 32) (σ : St) : St :=
  let r := W.call σ.trace fid σ.args σ.mem
  { reg := fun i => if i = 0 then r.ret else if 1 ≤ i ∧ i ≤ 5 then r.clob i else σ.reg i
    mem := r.mem
    trace := σ.trace ++ [⟨fid, σ.args⟩] }

/-- The 64-bit immediate loaded by a two-slot instruction. -/
def ldVal (W : World) (kind : BitVec 4) (lo hi : BitVec 32) : BitVec 64 :=
  let v := hi ++ lo
  if kind = 0 then v else W.ldimm kind.toNat v

/-- Straight-line effect of an instruction that is neither a jump, an exit nor a two-slot load. -/
def execInstr (W : World) (i : Instr) (σ : St) : Option St :=
  match i with
  | .alu w op d s => some (σ.set d.toNat (alu w op (σ.reg d.toNat) (s.val σ)))
  | .neg w d => some (σ.set d.toNat (negate w (σ.reg d.toNat)))
  | .swap be d wd => (swapVal be wd (σ.reg d.toNat)).map (fun v => σ.set d.toNat v)
  | .ldx sx sz d s off =>
    let v := load sz.bytes σ.mem (σ.reg s.toNat + off.signExtend 64)
    some (σ.set d.toNat (if sx then sextBytes sz.bytes v else v))
  | .st sz d off imm =>
    some { σ with mem := store sz.bytes σ.mem (σ.reg d.toNat + off.signExtend 64) (imm.signExtend 64) }
  | .stx sz d s off =>
    some { σ with mem := store sz.bytes σ.mem (σ.reg d.toNat + off.signExtend 64) (σ.reg s.toNat) }
  | .call fid => some (doCall W fid σ)
  | _ => none

/-- Straight-line execution of a sequence of slots from its first to its last slot; `none` if it
contains a jump, an exit or an undecodable slot. -/
def execLine (W : World) : List Slot → St → Option St
  | [], σ => some σ
  | s :: rest, σ =>
    match decode s with
    | some (.ldimm d k) =>
      match rest with
      | [] => none
      | s2 :: rest' => execLine W rest' (σ.set d.toNat (ldVal W k s.imm s2.imm))
    | some i =>
      match execInstr W i σ with
      | none => none
      | some σ' => execLine W rest σ'
    | none => none

/-- Result of executing the instruction at a program counter. -/
inductive Next where
  | goto (pc : Int) (σ : St)
  | done (ret : BitVec 64) (σ : St)
  | stuck

/-- One machine step at slot `pc` of `code`.  Jumps go to `pc + 1 + off`; a two-slot load reads its
second half from the next slot and continues after it. -/
def step (W : World) (code : List Slot) (pc : Int) (σ : St) : Next :=
  if pc < 0 then .stuck else
  match code[pc.toNat]? with
  | none => .stuck
  | some s =>
    match decode s with
    | none => .stuck
    | some (.ja off) => .goto (pc + 1 + off.toInt) σ
    | some (.jcc w c d src off) =>
      if cond w c (σ.reg d.toNat) (src.val σ) then .goto (pc + 1 + off.toInt) σ
      else .goto (pc + 1) σ
    | some .exit => .done (σ.reg 0) σ
    | some (.ldimm d k) =>
      match code[pc.toNat + 1]? with
      | none => .stuck
      | some s2 => .goto (pc + 2) (σ.set d.toNat (ldVal W k s.imm s2.imm))
    | some i =>
      match execInstr W i σ with
      | none => .stuck
      | some σ' => .goto (pc + 1) σ'

/-- `n` machine steps. -/
def run (W : World) (code : List Slot) : Nat → Int → St → Next
  | 0, pc, σ => .goto pc σ
  | n + 1, pc, σ =>
    match step W code pc σ with
    | .goto pc' σ' => run W code n pc' σ'
    | r => r

end Verif.Bpf
