import Verif.Spec.Bpf
/-!
# Specification: assembly text

How an instruction is written, in the syntax of the kernel's disassembler, as a list of characters.  Numbers are written with the digits Lean's library gives (`Nat.toDigits`).
-/
namespace Verif.Listing
open Verif.Bpf

def nat (n : Nat) : List Char := Nat.toDigits 10 n

def hexa (n : Nat) : List Char := Nat.toDigits 16 n

/-- A number with a sign if it is negative. -/
def signed (i : Int) : List Char := (if i < 0 then ['-'] else []) ++ nat i.natAbs

/-- A number with a sign. -/
def offset (i : Int) : List Char := (if i < 0 then ['-'] else ['+']) ++ nat i.natAbs

/-- A register: `r` for all of it, `w` for its lower half. -/
def register (w64 : Bool) (r : BitVec 4) : List Char := (if w64 then 'r' else 'w') :: nat r.toNat

def assign : AluOp → List Char
  | .add => "+=".toList | .sub => "-=".toList | .mul => "*=".toList | .div => "/=".toList | .mod => "%=".toList
  | .or => "|=".toList | .and => "&=".toList | .xor => "^=".toList | .lsh => "<<=".toList | .rsh => ">>=".toList
  | .arsh => "s>>=".toList | .mov => "=".toList

def compare : Cond → List Char
  | .eq => "==".toList | .ne => "!=".toList | .gt => ">".toList | .ge => ">=".toList | .lt => "<".toList | .le => "<=".toList
  | .sgt => "s>".toList | .sge => "s>=".toList | .slt => "s<".toList | .sle => "s<=".toList | .set => "&".toList

def width : Size → List Char
  | .b => "8".toList | .h => "16".toList | .w => "32".toList | .dw => "64".toList

/-- A place in memory, read or written with a width. -/
def memory (sx : Bool) (z : Size) (r : BitVec 4) (off : BitVec 16) : List Char :=
  "*(".toList ++ ((if sx then 's' else 'u') :: width z) ++ " *)(".toList ++ register true r ++ " ".toList ++ offset off.toInt ++ ")".toList

/-- The names of helpers are their numbers; there are 212. -/
def helper (k : BitVec 32) : List Char :=
  (if 0 ≤ k.toInt ∧ k.toInt < 212 then "fun_".toList ++ offset k.toInt else "unknown".toList) ++ "#".toList ++ signed k.toInt

/-- The instruction `i`; `v` is the number that a wide load loads. -/
def asm (v : BitVec 64) : Instr → List Char
  | .alu w64 o d (.reg r) => register w64 d ++ " ".toList ++ assign o ++ " ".toList ++ register w64 r
  | .alu w64 o d (.imm k) => register w64 d ++ " ".toList ++ assign o ++ " ".toList ++ signed k.toInt
  | .neg w64 d => register w64 d ++ " = -".toList ++ register w64 d
  | .swap be d k => register true d ++ " = ".toList ++ (if be then "be".toList else "le".toList) ++ signed k.toInt ++ " ".toList ++ register true d
  | .ldimm d _ => register true d ++ " = 0x".toList ++ hexa v.toNat ++ " (imm64 ld)".toList
  | .ldx sx z d r off => register true d ++ " = ".toList ++ memory sx z r off
  | .st z d off k => memory false z d off ++ " = ".toList ++ signed k.toInt
  | .stx z d r off => memory false z d off ++ " = ".toList ++ register true r
  | .ja off => "goto pc".toList ++ offset off.toInt
  | .jcc w64 c d (.reg r) off => "if ".toList ++ register w64 d ++ " ".toList ++ compare c ++ " ".toList ++ register w64 r ++ " goto pc".toList ++ offset off.toInt
  | .jcc w64 c d (.imm k) off => "if ".toList ++ register w64 d ++ " ".toList ++ compare c ++ " 0x".toList ++ hexa k.toNat ++ " goto pc".toList ++ offset off.toInt
  | .call k => "call ".toList ++ helper k
  | .exit => "exit".toList

/-- The line for an instruction: its code in two digits, then its text. -/
def shown (code : BitVec 8) (v : BitVec 64) (i : Instr) : List Char :=
  "(".toList ++ (if code.toNat < 16 then "0".toList else []) ++ hexa code.toNat ++ ") ".toList ++ asm v i ++ "\n".toList

/-- The number that a wide load in slot `s` loads: the half in the next slot comes first. -/
def loaded (s : Slot) (next : Option Slot) : BitVec 64 := ((next.map (·.imm)).getD 0) ++ s.imm

/-- The listing of the slots from number `k` on: a line with number and text for every instruction; slots without one (second halves of wide loads) are left out. -/
def text : Nat → List Slot → List Char
  | _, [] => []
  | k, s :: ss =>
    (match decode s with
      | none => []
      | some i => "[".toList ++ nat k ++ "] ".toList ++ shown s.code (loaded s ss.head?) i) ++ text (k + 1) ss

/-- A program that can be listed: apart from second halves of wide loads (code 0) its slots hold instructions, a wide load has a second half, and no load is a sign extending one of 64 bits (which the
instruction set does not have). -/
structure Listable (P : List Slot) : Prop where
  known : ∀ s ∈ P, s.code ≠ 0 → ∃ i, decode s = some i ∧ ∀ d r off, i ≠ .ldx true .dw d r off
  halves : ∀ (k : Nat) s, P[k]? = some s → s.code = 0x18 → P[k + 1]? ≠ none

end Verif.Listing
