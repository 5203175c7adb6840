import Verif.Spec.Bpf
/-!
# Specification: control flow of a bytecode program

Where control can go after each slot, read off the decoded instruction.  The second slot of a 64-bit
immediate load has opcode 0 and simply runs on.
-/
namespace Verif.Bpf

/-- Slots control may continue at after the instruction at slot `p`. -/
def flowI (p : Int) : Option Instr → List Int
  | some (.ja off) => [p + 1 + off.toInt]
  | some (.jcc _ _ _ _ off) => [p + 1 + off.toInt, p + 1]
  | some .exit => []
  | _ => [p + 1]

/-- Slots control may continue at after slot `p`. -/
def flow (P : List Slot) (p : Nat) : List Int :=
  match P[p]? with
  | none => []
  | some s => flowI p (decode s)

/-- The offset of a jump. -/
def jumpOffset : Instr → Option (BitVec 16)
  | .ja off => some off
  | .jcc _ _ _ _ off => some off
  | _ => none

/-- The slot holds a jump or an exit. -/
def isTerminator (P : List Slot) (p : Nat) : Prop :=
  ∃ s i, P[p]? = some s ∧ decode s = some i ∧ (i = .exit ∨ (jumpOffset i).isSome = true)

/-- `q` must start a block: slot 0, the target of a jump, the slot after a conditional jump, the slot
after an exit. -/
def leader (P : List Slot) (q : Nat) : Prop :=
  q = 0 ∨ ∃ (p : Nat) (s : Slot) (i : Instr), P[p]? = some s ∧ decode s = some i ∧
    ((∃ off, jumpOffset i = some off ∧ (q : Int) = p + 1 + off.toInt) ∨
     (∃ w c d src off, i = .jcc w c d src off ∧ q = p + 1) ∨
     (i = .exit ∧ q = p + 1 ∧ q < P.length))

/-- Programs the block builder is meant for: every slot decodes or is the second half of a wide load,
every wide load has its second half, and jumps stay inside the program. -/
structure Legal (P : List Slot) : Prop where
  enc : ∀ s ∈ P, s.code = 0 ∨ (decode s).isSome = true
  wide : ∀ (p : Nat) (s : Slot) (d k : BitVec 4), P[p]? = some s → decode s = some (.ldimm d k) → ∃ s2, P[p + 1]? = some s2 ∧ s2.code = 0
  jumps : ∀ (p : Nat) (s : Slot) (i : Instr) (off : BitVec 16), P[p]? = some s → decode s = some i → jumpOffset i = some off →
    0 ≤ (p : Int) + 1 + off.toInt ∧ (p : Int) + 1 + off.toInt ≤ P.length

/-- Control can get from slot 0 to slot `p`. -/
inductive SlotReach (P : List Slot) : Nat → Prop
  | first : 0 < P.length → SlotReach P 0
  | next {p q : Nat} : SlotReach P p → (q : Int) ∈ flow P p → q < P.length → SlotReach P q

/-- What the kernel's verifier checks about the shape of a program before anything else: it is legal,
opcode 0 occurs only as the second half of a wide load, no jump goes into a wide load, no jump goes back to
the very first slot (a condition of ours, not of the verifier), and no slot is unreachable. -/
structure WellShaped (P : List Slot) : Prop where
  legal : Legal P
  first : ∀ s, P[0]? = some s → s.code ≠ 0
  half : ∀ (p : Nat) (s : Slot), P[p + 1]? = some s → s.code = 0 → ∃ s' d k, P[p]? = some s' ∧ decode s' = some (.ldimm d k)
  into : ∀ (p : Nat) (s : Slot) (i : Instr) (off : BitVec 16), P[p]? = some s → decode s = some i → jumpOffset i = some off →
    ∀ (t : Nat) (s' : Slot), (t : Int) = p + 1 + off.toInt → P[t]? = some s' → s'.code ≠ 0
  start : ∀ (p : Nat) (s : Slot) (i : Instr) (off : BitVec 16), P[p]? = some s → decode s = some i → jumpOffset i = some off →
    (p : Int) + 1 + off.toInt ≠ 0
  live : ∀ p < P.length, SlotReach P p

/-- Control never runs off the end of the program: there is an instruction, and every slot is followed by slots of the program only. -/
def Closed (P : List Slot) : Prop := P ≠ [] ∧ ∀ p < P.length, ∀ q ∈ flow P p, q < P.length

end Verif.Bpf
