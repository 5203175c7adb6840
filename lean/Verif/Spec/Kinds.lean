import Verif.Spec.Cfg
/-!
# What the registers of a program hold

Part of the statements of C80 and C81: a condition on a program, stated on its slots alone, under which the frame pointer is used in the usual ways and no memory access goes to an address that is
known when the program is compiled.
-/
namespace Verif.Bpf

/-- `frame`: the frame pointer itself. `addr`: something computed, not the frame pointer. `any`: not the frame pointer. -/
inductive Kind where
  | frame | addr | any
  deriving DecidableEq, Repr, Inhabited

/-- What is `a` may be taken to be `b`. -/
def Kind.le (a b : Kind) : Bool := a == b || (a == .addr && b == .any)

/-- The register an instruction writes and what it then holds. -/
def result (t : Nat → Kind) : Instr → Option (Nat × Kind)
  | .alu _ op d src => some (d.toNat, if op = .mov then (match src with | .reg s => t s.toNat | .imm _ => .any) else .addr)
  | .neg _ d => some (d.toNat, .addr)
  | .swap _ d _ => some (d.toNat, .addr)
  | .ldimm d _ => some (d.toNat, .addr)
  | .ldx _ _ d _ _ => some (d.toNat, .addr)
  | .call _ => some (0, .addr)
  | _ => none

/-- What the registers hold behind a slot. -/
def after (t : Nat → Kind) (i : Option Instr) (r : Nat) : Kind :=
  match i.bind (result t) with
  | some (d, k) => if r = d then k else t r
  | none => t r

/-- The source operand is not the frame pointer. -/
def clearSrc (t : Nat → Kind) : Src → Bool
  | .reg s => t s.toNat != .frame
  | .imm _ => true

/-- The instruction uses what the registers hold in the allowed ways: the frame pointer is copied, is the base of an access written with `r10`, or has a constant added to it; the bases of
other accesses are computed. -/
def fits (t : Nat → Kind) : Instr → Bool
  | .alu w op d src => op = .mov || (clearSrc t src && (t d.toNat != .frame || (op = .add && w && match src with | .imm _ => true | .reg _ => false)))
  | .neg _ d => t d.toNat != .frame
  | .swap _ d _ => t d.toNat != .frame
  | .ldx _ _ _ s _ => s = 10 || t s.toNat == .addr
  | .st _ d _ _ => d = 10 || t d.toNat == .addr
  | .stx _ d s _ => (d = 10 || t d.toNat == .addr) && t s.toNat != .frame
  | .jcc _ _ d src _ => t d.toNat != .frame && clearSrc t src
  | .call fid => fid ≠ 6 && (t 1 != .frame && (t 2 != .frame && (t 3 != .frame && (t 4 != .frame && t 5 != .frame))))
  | .exit => t 0 != .frame
  | _ => true

/-- `T p r` describes register `r` in front of slot `p`. -/
structure Typed (P : List Slot) (T : Nat → Nat → Kind) : Prop where
  base : ∀ p, T p 10 = .frame
  lead : ∀ p, leader P p → ∀ r, r ≠ 10 → T p r ≠ .frame
  fit : ∀ (p : Nat) (s : Slot) (i : Instr), P[p]? = some s → decode s = some i → fits (T p) i = true
  step : ∀ (p : Nat) (s : Slot) (q : Nat), P[p]? = some s → (q : Int) ∈ flow P p → ∀ r, r < 10 → ((after (T p) (decode s) r).le (T q r)) = true

/-- The offset of an access whose base is written as `r10`. -/
def frameOff : Instr → Option (BitVec 16)
  | .ldx _ _ _ s off => if s = 10 then some off else none
  | .st _ d off _ => if d = 10 then some off else none
  | .stx _ d _ off => if d = 10 then some off else none
  | _ => none

/-- The program accesses its stack through `r10` at offsets with `B` only. -/
def FrameIn (B : BitVec 16 → Prop) (P : List Slot) : Prop := ∀ s ∈ P, ∀ i off, decode s = some i → frameOff i = some off → B off

end Verif.Bpf
