import Verif.Msan.Struct
import Verif.Msan.Sim
import Verif.Stack.Props
import Verif.Cg.Examples
import Verif.IR.OkCheck
/-!
# C47: the stack sanitizer
-/
namespace Verif.Msan
open Verif Verif.IR Verif.Edit

/-- C47, the code.  The pass succeeds on a function in which arithmetic takes its operands from instructions that are lower in some order (which every
function in SSA form without loops of arithmetic has; `k` is the depth of calls the C stack allows).  Then a new array of 32 × 8 bytes is the first
instruction of the entry block behind its phis, followed by the 32 stores that fill it with ones; every load and store is still there, unchanged and in its
place; every store at offset `o` from a value calculated from the stack pointer is followed immediately by a store of 0 of the same width at `o + 256` from
the same value, every such load by a load there; and nothing else is in the blocks. -/
theorem C47_structure {f : Fn} (ht : Tidy f) (he : f.entry ∈ f.allBbs) {rs : List Nat} (hn : rs.Nodup) (hb : ∀ b ∈ rs, b ∈ f.allBbs) {k : Nat}
    (h2 : ∀ x, (f.insn x).op.binAlu = true → ∃ v w, (f.insn x).vals = [v, w])
    (rk : Nat → Nat) (hr : ∀ x y, (f.insn x).op.binAlu = true → .insn y ∈ (f.insn x).vals → rk y < rk x) (hk : ∀ x, rk x < k) :
    ∃ g, msan k rs f = .ok g ∧ ∃ ini after, Sanitized f rs g f.next ini after := by
  obtain ⟨g, hg⟩ := msan_ok ht he hn hb h2 rk hr hk
  exact ⟨g, hg, msan_sanitized ht he hn hb hg⟩

/-- C47, the executions.  `p` is where the new array is.  If the loads and stores through the stack pointer stay in the 256 bytes below `p` and nothing else
touches the array, then the sanitized function does the same calls, the same changes to memory outside of the array and has the same result as the original;
and at every moment the shadow of a byte, 256 bytes above it, is 0 if the byte has been written to through the stack pointer and all ones if not.

Missing: that `p` is 256 above the stack of the program (false as soon as one value is spilled, see below), functions which jump back to their start (see
below), and offsets above 32511. -/
theorem C47_shadow_partial {f : Fn} {R : List Nat} (hf : Fit f R) (hn : R.Nodup) {k : Nat} {g : Fn} (h : msan k R f = .ok g)
    (W : World) (σ : St) (p : BitVec 64) (harr : W.arr f.next = p) (hbl : Blind W p) (hs : Sane W f σ p) (n : Nat) :
    runFn W f n σ = .stuck ∨ ∃ m, n ≤ m ∧ Follows W f σ p n (runFn W f n σ) (runFn W g m σ) := by
  obtain ⟨ini, after, S⟩ := msan_sanitized hf.tidy (hf.blocks _ hf.flow.entry) hn hf.blocks h
  exact follows hf S hbl hs harr n

/-! ## The shadow is not always the array -/

/-- The array of the sanitizer and one spilled value: the array gets the bytes -256..-1 below r10, the value the bytes -264..-257, and the stack of the
program moves down by 264.  The shadow of the lowest of the 256 bytes of the program, at -256 + 256, is then the slot of the spilled value: `*(u64 *)(r10 -
256) = x` overwrites the value with 0. -/
theorem C47_spill_violated :
    Stack.layout 0 [.arr 32 .t64, .val] = .ok (-264, [⟨-256, 256⟩, ⟨-264, 8⟩]) ∧
    Stack.Has ⟨-264, 8⟩ .val (Stack.ownPlace (-264) (-256 + 256)) ∧
    ¬ Stack.Has ⟨-256, 256⟩ (.arr 32 .t64) (Stack.ownPlace (-264) (-256 + 256)) := by
  refine ⟨by decide +kernel, ?_, ?_⟩ <;> unfold Stack.Has <;> decide +kernel

/-- Without a spilled value it is the array, for each of the 256 bytes. -/
theorem C47_no_spill : Stack.layout 0 [.arr 32 .t64] = .ok (-256, [⟨-256, 256⟩]) ∧
    ∀ o : Int, -256 ≤ o → o < 0 → Stack.Has ⟨-256, 256⟩ (.arr 32 .t64) (Stack.ownPlace (-256) (o + 256)) := by
  refine ⟨by decide +kernel, fun o h1 h2 => ?_⟩
  have e : Stack.ownPlace (-256) (o + 256) = o := by
    unfold Stack.ownPlace
    have : ((-256 : BitVec 32).setWidth 16).toInt = -256 := by decide
    rw [this]; omega
  rw [e]
  unfold Stack.Has
  have : ((-256 : BitVec 32)).toInt = -256 := by decide
  have h3 : Stack.need (.arr 32 .t64) = 256 := by decide
  rw [h3]
  show (-256 : BitVec 32).toInt ≤ o ∧ o < (-256 : BitVec 32).toInt + (256 : Nat)
  omega

/-! ## Examples -/

/-- A world in which arrays are at 0x1000 and calls change nothing. -/
def exW : World := { bpf := Lift.exW, arr := fun _ => 0x1000, wid := fun _ => 8 }
/-- r10 is 0x1000, r1 points elsewhere. -/
def exσ : St := { env := fun x => if x = 10 then 0x1000 else if x = 1 then 0x5000 else 0, var := fun _ => 0, mem := fun _ => 9, trace := [] }

/-- `*(u64 *)(r10 - 8) = 7; r2 = r10 - 16; r3 = *(u32 *)(r2 + 8); r4 = *(u64 *)(r1 + 0); return r3`. -/
def exF : Fn := Cg.mkFn [([(11, mkStoreraw .t64 (.insn 10) (-8) .rawoff (const64 7)), (12, mkBin .sub .w64 (.insn 10) (const32 16)),
  (13, mkLoadraw .t32 (.insn 12) 8 .plain), (14, mkLoadraw .t64 (.insn 1) 0 .plain), (15, mkRet (.insn 13))], [])]

theorem exF_fit : Fit exF [0] := by
  refine ⟨(ok_of_check (by decide +kernel) (fun b => Cg.mkFn_body)).tidy, Cg.flow_of_check (by decide +kernel), by decide +kernel, by decide +kernel,
    by decide +kernel, ?_⟩
  have : ∀ b ∈ [0], ∀ x ∈ exF.body b, (exF.insn x).addrOff.toInt + 256 < 2 ^ 15 := by decide +kernel
  exact fun b hb x hx _ => this b hb x hx

theorem exF_blind : Blind exW 0x1000 := fun _ _ _ _ _ h => ⟨rfl, h, fun _ _ => rfl⟩

def exτ1 : St := { exσ with mem := Bpf.store 8 exσ.mem (0x1000 + (-8 : BitVec 16).signExtend 64) 7 }
def exτ2 : St := exτ1.set 12 (0x1000 - 16)
def exτ3 : St := exτ2.set 13 (Bpf.load 4 exτ2.mem (exτ2.env 12 + (8 : BitVec 16).signExtend 64))
def exτ4 : St := exτ3.set 14 (Bpf.load 8 exτ3.mem (exτ3.env 1 + (0 : BitVec 16).signExtend 64))

theorem exF_gets {k x : Nat} {τ : St} (h : Gets exW exF exσ k x τ) :
    x = 11 ∧ τ = exσ ∨ x = 12 ∧ τ = exτ1 ∨ x = 13 ∧ τ = exτ2 ∨ x = 14 ∧ τ = exτ3 ∨ x = 15 := by
  obtain ⟨b, r, h⟩ := h
  rcases k with _ | _ | _ | _ | _ | k
  · rw [show runFn exW exF 0 exσ = .running 0 [11, 12, 13, 14, 15] exσ from rfl] at h
    cases h; exact .inl ⟨rfl, rfl⟩
  · rw [show runFn exW exF 1 exσ = .running 0 [12, 13, 14, 15] exτ1 from rfl] at h
    cases h; exact .inr (.inl ⟨rfl, rfl⟩)
  · rw [show runFn exW exF 2 exσ = .running 0 [13, 14, 15] exτ2 from rfl] at h
    cases h; exact .inr (.inr (.inl ⟨rfl, rfl⟩))
  · rw [show runFn exW exF 3 exσ = .running 0 [14, 15] exτ3 from rfl] at h
    cases h; exact .inr (.inr (.inr (.inl ⟨rfl, rfl⟩)))
  · rw [show runFn exW exF 4 exσ = .running 0 [15] exτ4 from rfl] at h
    cases h; exact .inr (.inr (.inr (.inr rfl)))
  · rw [show runFn exW exF (k + 5) exσ = .done (exτ4.env 13) exτ4 from rfl] at h
    cases h

theorem exF_tracked {x : Nat} (h : Tracked exF x) : x ≠ 14 := by
  rintro rfl
  obtain ⟨_, y, e, h⟩ := h
  have e' : y = 1 := by cases e; rfl
  subst e'
  exact absurd ((isSp_spec (f := exF) 3 (x := 1) (t := false) (by decide +kernel)).2 h) (by simp)

theorem exF_sane : Sane exW exF exσ 0x1000 := by
  constructor
  · rintro k x τ hg ht a ⟨v, n, i, h1, h2, h3, rfl⟩
    rcases exF_gets hg with ⟨rfl, rfl⟩ | ⟨rfl, rfl⟩ | ⟨rfl, rfl⟩ | ⟨rfl, rfl⟩ | rfl
    · have e1 : v = 0x1000 := by cases h1; rfl
      have e2 : n = 8 := by cases h2; rfl
      subst e1 e2
      unfold Below
      revert i; decide +kernel
    · rcases ht.1 with h | h <;> cases h
    · have e1 : v = 0x1000 - 16 := by cases h1; rfl
      have e2 : n = 4 := by cases h2; rfl
      subst e1 e2
      unfold Below
      revert i; decide +kernel
    · exact absurd rfl (exF_tracked ht)
    · rcases ht.1 with h | h <;> cases h
  · rintro k x τ hg hop ht a ⟨v, n, i, h1, h2, h3, rfl⟩
    rcases exF_gets hg with ⟨rfl, rfl⟩ | ⟨rfl, rfl⟩ | ⟨rfl, rfl⟩ | ⟨rfl, rfl⟩ | rfl
    · exact absurd ⟨hop, 10, rfl, .sp⟩ ht
    · rcases hop with h | h <;> cases h
    · exact absurd ⟨hop, 12, rfl, .arith (x := 12) (y := 10) rfl rfl (by simp) .sp⟩ ht
    · have e1 : v = 0x5000 := by cases h1; rfl
      have e2 : n = 8 := by cases h2; rfl
      subst e1 e2
      unfold Shadow
      revert i; decide +kernel
    · rcases hop with h | h <;> cases h

/-- What the function returns within `n` steps, and the byte at `a` then. -/
def retByte (f : Out Fn) (n : Nat) (σ : St) (a : BitVec 64) : Option (BitVec 64 × BitVec 8) :=
  match f with
  | .ok g => match runFn exW g n σ with
    | .done v τ => some (v, τ.mem a)
    | _ => none
  | _ => none

/-- C47_structure and C47_shadow_partial on this function: it returns 7 with and without the sanitizer, and the shadow of the bytes -8..-1 is 0 then, that of
the byte -9 is 0xff. -/
example : Fit exF [0] ∧ Blind exW 0x1000 ∧ Sane exW exF exσ 0x1000 ∧ exW.arr exF.next = 0x1000 ∧ (msan 3 [0] exF).isOk ∧
    retByte (.ok exF) 5 exσ 0x1000 = some (7, 9) ∧ retByte (msan 3 [0] exF) 40 exσ (0x1000 + 248) = some (7, 0) ∧
    retByte (msan 3 [0] exF) 40 exσ (0x1000 + 255) = some (7, 0) ∧ retByte (msan 3 [0] exF) 40 exσ (0x1000 + 247) = some (7, 0xff) :=
  ⟨exF_fit, exF_blind, exF_sane, rfl, by decide +kernel, by decide +kernel, by decide +kernel, by decide +kernel, by decide +kernel⟩

/-! ## Jumping back to the start -/

/-- `again: r2 = *(u64 *)(r10 - 8); *(u64 *)(r10 - 8) = 7; goto again`. -/
def loopF : Fn := Cg.mkFn [([(11, mkLoadraw .t64 (.insn 10) (-8) .rawoff), (12, mkStoreraw .t64 (.insn 10) (-8) .rawoff (const64 7)), (13, mkJa 0)], [0])]

/-- The next instruction after `n` steps, and the byte at `a` then. -/
def nextByte (f : Out Fn) (n : Nat) (σ : St) (a : BitVec 64) : Option (Nat × BitVec 8) :=
  match f with
  | .ok g => match runFn exW g n σ with
    | .running _ (x :: _) τ => some (x, τ.mem a)
    | _ => none
  | _ => none

/-- The shadow memory is filled with ones again: when the load is reached for the second time, the byte at -8 has been written to (it is 7), but its shadow is
all ones. -/
theorem C47_loop_violated : nextByte (msan 3 [0] loopF) 71 exσ (0x1000 - 8) = some (11, 7) ∧ nextByte (msan 3 [0] loopF) 71 exσ (0x1000 - 8 + 256) = some (11, 0xff) := by
  decide +kernel

/-! ## Nothing looks at the shadow -/

/-- `return *(u64 *)(r10 - 8)`, a read of a byte nobody has written to. -/
def readF : Fn := Cg.mkFn [([(11, mkLoadraw .t64 (.insn 10) (-8) .rawoff), (12, mkRet (.insn 11))], [])]

/-- The sanitized function returns it all the same: the shadow is loaded and not looked at. -/
theorem C47_silent : retByte (.ok readF) 2 exσ 0 = some (0x0909090909090909, 9) ∧ retByte (msan 3 [0] readF) 40 exσ 0 = some (0x0909090909090909, 9) := by
  decide +kernel

end Verif.Msan
