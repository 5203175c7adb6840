import Verif.Norm.Sound3
import Verif.Norm.Line
/-!
# C10 – C14: code generation for single instructions

Each theorem says: when ePass' normalization and translation of one allocated IR instruction succeed
with machine code `ps`, then executing the slots of `ps` on the BPF machine of `Verif/Spec/Bpf.lean`
has exactly the effect that `Verif/Spec/Flat.lean` gives to the IR instruction: the destination
location receives the value, every other register, all memory and the call trace stay as they were
(the conclusion is an equation between whole machine states).

Restrictions in the hypotheses are each shown to be necessary by a `_violated` theorem next to it.
-/
set_option linter.unusedSimpArgs false
namespace Verif.Norm
open Verif Verif.Bpf

/-- A machine register as location. -/
abbrev inReg (r : Reg) : VrPos := ⟨true, r, 0⟩
/-- A stack slot as location (`o ≠ 0`, bytes below the frame pointer). -/
abbrev inSlot (o : Int) : VrPos := ⟨true, 0, o⟩

/-! ## C10: binary ALU -/

/-- The operand is a register or a 32-bit (sign-extended) constant. -/
def RegOrConst (v : FVal) : Prop :=
  (∃ r, v = .pos (inReg r)) ∨ ∃ k b, ∃ c : BitVec 32, v = .const k (c.signExtend 64) .w32 b

/-- Destination equal to the second operand of an operation that is neither commutative nor SUB:
ePass refuses these ("non-commutative ALU op not supported yet"). -/
def Refused (i : FInsn) : Prop :=
  i.op.comm = false ∧ i.op ≠ .sub ∧ ∃ r, i.v1 = .pos (inReg r) ∧ i.dst.reg = r

theorem trAlu_ok {j : FInsn} {a : AluOp} {d : Reg} (hop : Flat.aluOp j.op = some a) (hn : j.valueNum = 2)
    (hd : j.dst = inReg d) (h0 : j.v0 = .pos (inReg d)) (h1 : RegOrConst j.v1) :
    ∃ ps, trInsn j = .ok ps := by
  obtain ⟨c, hc⟩ := aluCode_ok hop
  have htr : trInsn j = trAlu j := by
    cases ho : j.op <;> simp [ho, Flat.aluOp] at hop <;> simp [trInsn, ho, Op.binAlu]
  rw [htr]
  rcases h1 with ⟨r, h1⟩ | ⟨k, b, c1, h1⟩
  · exact ⟨_, by simp [trAlu, vtypeAt, vtype, hn, hd, h0, h1, FVal.regOf, hc]; rfl⟩
  · by_cases e : j.op = .add ∧ c1.signExtend 64 = 0#64
    · exact ⟨[], by simp [trAlu, vtypeAt, vtype, hn, hd, h0, h1, FVal.regOf, FVal.constOf, hc, e]⟩
    · refine ⟨[aluImmP d (c1.signExtend 64) j.aluOp c], ?_⟩
      simp [trAlu, vtypeAt, vtype, hn, hd, h0, h1, FVal.regOf, FVal.constOf, hc]
      exact fun h1 h2 => absurd ⟨h1, h2⟩ e

theorem mapCat_two {α β : Type} {f : α → Out (List β)} {a b : α} (h1 : ∃ x, f a = .ok x) (h2 : ∃ x, f b = .ok x) :
    ∃ x, mapCat f [a, b] = .ok x := by
  obtain ⟨x, hx⟩ := h1
  obtain ⟨y, hy⟩ := h2
  exact ⟨x ++ y, by simp [mapCat_cons, hx, hy]⟩

theorem mapCat_one' {α β : Type} {f : α → Out (List β)} {a : α} (h1 : ∃ x, f a = .ok x) :
    ∃ x, mapCat f [a] = .ok x := by
  obtain ⟨x, hx⟩ := h1
  exact ⟨x, by simp [mapCat_cons, hx]⟩

theorem lower_alu_ok {i : FInsn} {a : AluOp} {d : Reg}
    (hop : Flat.aluOp i.op = some a) (hn : i.valueNum = 2)
    (hd : i.dst = inReg d) (h0 : RegOrConst i.v0) (h1 : RegOrConst i.v1)
    (hr : ¬ Refused i) : ∃ ps, lower i = .ok ps := by
  have hne : normInsn i = normAlu i := by
    cases ho : i.op <;> simp [ho, Flat.aluOp] at hop <;> simp [normInsn, ho, Op.binAlu]
  simp only [lower, hne]
  rcases i with ⟨op, v0, v1, vn, vt, addr, ao, al, bb1, bb2, aux, ik, i64, dst⟩
  simp only at *
  subst hn hd
  have asgOk : ∀ v, RegOrConst v → ∃ x, trInsn (mkAssign (inReg d) v) = .ok x := by
    rintro v (⟨r, rfl⟩ | ⟨k, b, c, rfl⟩)
    · by_cases e : d = r
      · exact ⟨[], by simp [trInsn, trAssign, mkAssign, vtypeAt, vtype, FVal.regOf, e]⟩
      · exact ⟨_, by simp [trInsn, trAssign, mkAssign, vtypeAt, vtype, FVal.regOf, e]; rfl⟩
    · exact ⟨_, by simp [trInsn, trAssign, mkAssign, vtypeAt, vtype]; rfl⟩
  have h1' := h1
  have h0' := h0
  rcases h1 with ⟨r1, rfl⟩ | ⟨k1, b1, c1, rfl⟩
  · by_cases e1 : d = r1
    · subst e1
      by_cases hcomm : op.comm = true
      · rcases h0 with ⟨r0, rfl⟩ | ⟨k0, b0, c0, rfl⟩
        · simp [normAlu, vtypeAt, vtype, FVal.regOf, FVal.ctype, hcomm]
          exact mapCat_one' (trAlu_ok hop rfl rfl rfl h0')
        · simp [normAlu, vtypeAt, vtype, FVal.regOf, FVal.ctype, hcomm]
          exact mapCat_one' (trAlu_ok hop rfl rfl rfl h0')
      · by_cases hsub : op = .sub
        · subst hsub
          rcases h0 with ⟨r0, rfl⟩ | ⟨k0, b0, c0, rfl⟩
          · simp [normAlu, vtypeAt, vtype, FVal.regOf, FVal.ctype, hcomm]
            exact mapCat_two ⟨_, by simp [trInsn, trNeg, vtypeAt, vtype, FVal.regOf]; rfl⟩
              (trAlu_ok (a := .add) rfl rfl rfl rfl h0')
          · simp [normAlu, vtypeAt, vtype, FVal.regOf, FVal.ctype, hcomm]
            exact mapCat_two ⟨_, by simp [trInsn, trNeg, vtypeAt, vtype, FVal.regOf]; rfl⟩
              (trAlu_ok (a := .add) rfl rfl rfl rfl h0')
        · exact absurd ⟨by simpa using hcomm, hsub, d, rfl, rfl⟩ hr
    · rcases h0 with ⟨r0, rfl⟩ | ⟨k0, b0, c0, rfl⟩
      · by_cases e0 : r0 = d
        · subst e0
          simp [normAlu, vtypeAt, vtype, FVal.regOf, FVal.ctype, e1]
          exact mapCat_one' (trAlu_ok hop rfl rfl rfl h1')
        · simp [normAlu, vtypeAt, vtype, FVal.regOf, FVal.ctype, e1, e0]
          exact mapCat_two (asgOk _ h0') (trAlu_ok hop rfl rfl rfl h1')
      · simp [normAlu, vtypeAt, vtype, FVal.regOf, FVal.ctype, e1, normLoadConst]
        exact mapCat_two ⟨_, by simp [trInsn, trAssign, mkAssign, vtypeAt, vtype]; rfl⟩ (trAlu_ok hop rfl rfl rfl h1')
  · rcases h0 with ⟨r0, rfl⟩ | ⟨k0, b0, c0, rfl⟩
    · by_cases e0 : r0 = d
      · subst e0
        simp [normAlu, vtypeAt, vtype, FVal.regOf, FVal.ctype]
        exact mapCat_one' (trAlu_ok hop rfl rfl rfl h1')
      · simp [normAlu, vtypeAt, vtype, FVal.regOf, FVal.ctype, e0]
        exact mapCat_two (asgOk _ h0') (trAlu_ok hop rfl rfl rfl h1')
    · simp [normAlu, vtypeAt, vtype, FVal.regOf, FVal.ctype, normLoadConst]
      exact mapCat_two ⟨_, by simp [trInsn, trAssign, mkAssign, vtypeAt, vtype]; rfl⟩ (trAlu_ok hop rfl rfl rfl h1')

/-- C10, main part.  Every binary operation on registers and constants with a register destination is
compiled, and the code puts `a op b` into the destination and changes nothing else, for every register
content — except for the aliasing pattern ePass refuses, and two patterns that it miscompiles. -/
theorem C10_alu_partial (W : World) (i : FInsn) (a : AluOp) (d : Reg)
    (hop : Flat.aluOp i.op = some a) (hn : i.valueNum = 2) (hw : i.aluOp = .w32 ∨ i.aluOp = .w64)
    (hd : i.dst = inReg d) (h0 : RegOrConst i.v0) (h1 : RegOrConst i.v1)
    (hr : ¬ Refused i) (hz : ¬ DropsAdd0 i) (hs : ¬ SubSelf i) :
    ∃ ps, lower i = .ok ps ∧ ∀ σ x y, Flat.val σ i.v0 = some x → Flat.val σ i.v1 = some y →
      execLine W (slotsOf ps) σ = some (σ.set d (alu (decide (i.aluOp = .w64)) a x y)) := by
  obtain ⟨ps, hl⟩ := lower_alu_ok hop hn hd h0 h1 hr
  refine ⟨ps, hl, fun σ x y hx hy => ?_⟩
  have hwid : Flat.width i.aluOp = some (decide (i.aluOp = .w64)) := by
    rcases hw with h | h <;> simp [h, Flat.width]
  have vok : ∀ v, RegOrConst v → ValOk v := by
    rintro v (⟨r, rfl⟩ | ⟨k, b, c, rfl⟩)
    · simp [ValOk, PosOk]
    · simp [ValOk, ConstOk, sext_trunc]
  refine lower_alu hop hn (vok _ h0) (vok _ h1) hz hs ?_ hl
  cases ho : i.op <;> simp [ho, Flat.aluOp] at hop <;>
    simp [Flat.exec, ho, Flat.aluOp, hwid, hx, hy, hop, Flat.put, hd]

/-- C10, remaining placements (stack operands, any destination): whenever code is produced at all, it
is right, under the same two exclusions. -/
theorem C10_no_wrong_code_partial (W : World) (i : FInsn) (a : AluOp) (σ σ' : St) (ps : List Pre)
    (hop : Flat.aluOp i.op = some a) (hn : i.valueNum = 2)
    (h0 : ValOk i.v0) (h1 : ValOk i.v1) (hz : ¬ DropsAdd0 i) (hs : ¬ SubSelf i)
    (hspec : Flat.exec W i σ = some σ') (hl : lower i = .ok ps) :
    execLine W (slotsOf ps) σ = some σ' :=
  lower_alu hop hn h0 h1 hz hs hspec hl

/-- A state used in concrete cases: every register holds all ones, except as set. -/
def ones : St := { reg := fun _ => -1, mem := fun _ => 0, trace := [] }
def noWorld : World := { ldimm := fun _ v => v, call := fun _ _ _ m => ⟨0, m, fun _ => 0⟩ }

/-- Register number `r` after straight-line execution. -/
def regAfter (r : Nat) (ps : Out (List Pre)) (σ : St) : Option (BitVec 64) :=
  match ps with
  | .ok ps => (execLine noWorld (slotsOf ps) σ).map (fun τ => τ.reg r)
  | _ => none

/-- r1 = r2 - r1 in 64-bit mode meets the hypotheses of `C10_alu_partial`. -/
def exSub : FInsn :=
  { op := .sub, v0 := .pos (inReg 2), v1 := .pos (inReg 1), valueNum := 2, aluOp := .w64, dst := inReg 1 }

example : ∃ ps, lower exSub = .ok ps ∧ ∀ σ x y, Flat.val σ exSub.v0 = some x → Flat.val σ exSub.v1 = some y →
    execLine noWorld (slotsOf ps) σ = some (σ.set (1 : Reg) (alu (decide (exSub.aluOp = .w64)) .sub x y)) :=
  C10_alu_partial noWorld exSub .sub 1 rfl rfl (Or.inr rfl) rfl (Or.inl ⟨2, rfl⟩) (Or.inl ⟨1, rfl⟩)
    (by rintro ⟨_, h, _⟩; exact h rfl) (by simp [DropsAdd0, exSub])
    (by simp [SubSelf, exSub, inReg])

example : regAfter 1 (lower exSub) ((ones.set 2 10).set 1 3) = some 7 := by decide +kernel

/-- C10 is violated: `w1 = w1 + 0` must clear the upper half of r1, but no code is emitted
(`translate_alu`, core/ir_cg_norm.c:966-969). -/
theorem C10_violated_add0 :
    let i : FInsn := { op := .add, v0 := .pos (inReg 1), v1 := const32 0, valueNum := 2, aluOp := .w32,
                       dst := inReg 1 }
    lower i = .ok [] ∧ Flat.exec noWorld i ones ≠ none ∧
    (Flat.exec noWorld i ones).map (fun τ => τ.reg 1) = some 0xffffffff ∧
    regAfter 1 (lower i) ones = some 0xffffffffffffffff := by
  refine ⟨rfl, ?_, ?_, ?_⟩
  · simp [Flat.exec, Flat.aluOp, Flat.width, Flat.val, const32, Flat.put]
  · decide +kernel
  · decide +kernel

/-- C10 is violated: `r1 = r1 - r1` is compiled to `r1 = -r1; r1 += r1`, leaving `-2*r1` instead of 0
(`normalize_alu`, core/ir_cg_norm.c:326-340). -/
theorem C10_violated_sub_self :
    let i : FInsn := { op := .sub, v0 := .pos (inReg 1), v1 := .pos (inReg 1), valueNum := 2, aluOp := .w64,
                       dst := inReg 1 }
    (Flat.exec noWorld i (ones.set 1 5)).map (fun τ => τ.reg 1) = some 0 ∧
    regAfter 1 (lower i) (ones.set 1 5) = some (-10) := by
  refine ⟨?_, ?_⟩ <;> decide +kernel

/-- C10 is violated: an aliasing pattern that is refused, `r1 = r2 / r1`. -/
theorem C10_violated_refused :
    lower { op := .div, v0 := .pos (inReg 2), v1 := .pos (inReg 1), valueNum := 2, aluOp := .w64,
            dst := inReg 1 } = .err := rfl

/-! ## C11: conditional jumps -/

/-- C11.  Whatever offset relocation later writes into it, the emitted slot jumps exactly when the IR
comparison holds on the operand values and changes nothing; if no slot is emitted the comparison is
false. The last hypothesis excludes a 32-bit comparison of two constants of which one is a 64-bit
constant. -/
theorem C11_branch_partial (W : World) (i : FInsn) (c : Cond) (σ : St) (b : Bool) (ps : List Pre)
    (hop : Flat.condOp i.op = some c) (hn : i.valueNum = 2)
    (h0 : ∀ k v ct b, i.v0 = .const k v ct b → ct ≠ .w64 → (v.setWidth 32).signExtend 64 = v)
    (h1 : ∀ k v ct b, i.v1 = .const k v ct b → ct ≠ .w64 → (v.setWidth 32).signExtend 64 = v)
    (hcc : ∀ k v ct b k' v' ct' b', i.v0 = .const k v ct b → i.v1 = .const k' v' ct' b' →
      i.aluOp = .w32 → ct ≠ .w64 ∧ ct' ≠ .w64)
    (hspec : Flat.taken i σ = some b) (hl : lower i = .ok ps) :
    (ps = [] ∧ b = false) ∨
    ∃ p s, ps = [p] ∧ p.slots = [s] ∧ ∀ (code : List Slot) (pc : Nat) (off : BitVec 16),
      code[pc]? = some { s with off := off } →
      Bpf.step W code pc σ = .goto (if b then pc + 1 + off.toInt else pc + 1) σ := by
  rcases lower_condjmp (W := W) hop hn h0 h1 hcc hspec hl with h | ⟨p, hp, s, hs, hj⟩
  · exact Or.inl h
  · exact Or.inr ⟨p, s, hp, hs, hj⟩

/-- Comparisons of a register with a register or a 32-bit constant, on either side, are always
compiled to one slot. -/
theorem C11_supported (i : FInsn) (c : Cond) (hop : Flat.condOp i.op = some c) (hn : i.valueNum = 2)
    (h0 : RegOrConst i.v0) (h1 : RegOrConst i.v1)
    (hr : (∃ r, i.v0 = .pos (inReg r)) ∨ ∃ r, i.v1 = .pos (inReg r)) :
    ∃ p, lower i = .ok [p] := by
  have hno : normInsn i = (do let r ← normCondJmp i; Out.ok r.toList) := by
    cases ho : i.op <;> simp [ho, Flat.condOp] at hop <;> simp [normInsn, ho, Op.binAlu, Op.condJmp]
  have htr : ∀ j : FInsn, (∃ c, Flat.condOp j.op = some c) → trInsn j = trCondJmp j := by
    rintro j ⟨c, h⟩
    cases ho : j.op <;> simp [ho, Flat.condOp] at h <;> simp [trInsn, ho, Op.binAlu, Op.condJmp]
  obtain ⟨k8, hk, -, -⟩ := condOp_jmpCode hop
  obtain ⟨o', c', hsw, hc'⟩ := condOp_swap hop
  obtain ⟨k8', hk', -, -⟩ := condOp_jmpCode hc'
  have one : ∀ j : FInsn, (∃ p, trInsn j = .ok [p]) → ∃ p, mapCat trInsn [j] = .ok [p] := by
    rintro j ⟨p, h⟩; exact ⟨p, by simp [mapCat_cons, h]⟩
  simp only [lower, hno]
  rcases i with ⟨op, v0, v1, vn, vt, addr, ao, al, bb1, bb2, aux, ik, i64, dst⟩
  simp only at *
  subst hn
  rcases h0 with ⟨r0, rfl⟩ | ⟨k0, b0, c0, rfl⟩ <;> rcases h1 with ⟨r1, rfl⟩ | ⟨k1, b1, c1, rfl⟩
  · simp [normCondJmp, vtypeAt, vtype]
    apply one; rw [htr _ ⟨_, hop⟩]
    exact ⟨_, by simp [trCondJmp, vtypeAt, vtype, hk]; rfl⟩
  · simp [normCondJmp, vtypeAt, vtype]
    apply one; rw [htr _ ⟨_, hop⟩]
    exact ⟨_, by simp [trCondJmp, vtypeAt, vtype, hk, FVal.ctype]; rfl⟩
  · simp [normCondJmp, vtypeAt, vtype, hsw]
    apply one; rw [htr _ ⟨_, hc'⟩]
    exact ⟨_, by simp [trCondJmp, vtypeAt, vtype, hk', FVal.ctype]; rfl⟩
  · simp at hr

/-- `if 5 <s r3` becomes `if r3 >s 5`; with r3 = -1 it is not taken, with r3 = 9 it is. -/
example :
    lower { op := .jslt, v0 := const32 5, v1 := .pos (inReg 3), valueNum := 2, aluOp := .w64 } =
      .ok [{ opcode := 0x65, dst := 3, imm := 5 }] ∧
    Flat.taken { op := .jslt, v0 := const32 5, v1 := .pos (inReg 3), valueNum := 2, aluOp := .w64 } ones
      = some false ∧
    Flat.taken { op := .jslt, v0 := const32 5, v1 := .pos (inReg 3), valueNum := 2, aluOp := .w64 } (ones.set 3 9)
      = some true := by
  refine ⟨?_, ?_, ?_⟩ <;> decide +kernel

/-- C11 is violated: comparing two constants in 32-bit mode looks at all 64 bits
(`normalize_cond_jmp`, core/ir_cg_norm.c:262-270). -/
theorem C11_violated_const_const :
    let i : FInsn := { op := .jne, v0 := .const .plain 0x100000000 .w64 .none, v1 := const32 0, valueNum := 2,
                       aluOp := .w32 }
    Flat.taken i ones = some false ∧ lower i = .ok [jaP] := by
  refine ⟨?_, ?_⟩ <;> decide +kernel

/-! ## C12: copies -/

/-- C12.  The destination location gets the source value and nothing else changes.  Excluded: a 64-bit
constant stored to a stack slot, and 32-bit assignments other than of a 32-bit constant to a register;
a copy from a stack slot must be marked as an 8-byte access. -/
theorem C12_assign_partial (W : World) (i : FInsn) (σ σ' : St) (ps : List Pre)
    (hop : i.op = .assign) (hn : i.valueNum = 1) (hv : ValOk i.v0) (hd : PosOk i.dst)
    (hct : ∀ k c b, i.v0 ≠ .const k c .unknown b)
    (h64 : posType i.dst = .stack → i.v0.ctype ≠ .w64)
    (h32 : i.aluOp = .w32 → i.v0.ctype = .w32 ∧ posType i.dst = .reg)
    (hload : ∀ p, i.v0 = .pos p → posType p = .stack → i.vrType = .t64)
    (hspec : Flat.exec W i σ = some σ') (hl : lower i = .ok ps) :
    execLine W (slotsOf ps) σ = some σ' :=
  lower_assign hop hn hv hd hct h64 h32 hload hspec hl

/-- All placements but stack-to-stack are compiled. -/
theorem C12_supported (v : FVal) (d : VrPos) (al : AluTy)
    (hd : (∃ r, d = inReg r) ∨ ∃ o : Int, o ≠ 0 ∧ d = inSlot o)
    (hv : (∃ r, v = .pos (inReg r)) ∨ (∃ o : Int, o ≠ 0 ∧ v = .pos (inSlot o)) ∨
      ∃ k c b, ∃ t : AluTy, t ≠ .unknown ∧ v = .const k c t b)
    (hss : ¬ ((∃ o : Int, o ≠ 0 ∧ d = inSlot o) ∧ ∃ o : Int, o ≠ 0 ∧ v = .pos (inSlot o))) :
    ∃ ps, lower { op := .assign, v0 := v, valueNum := 1, dst := d, aluOp := al, vrType := .t64 } = .ok ps := by
  rcases hd with ⟨r, rfl⟩ | ⟨o, ho, rfl⟩ <;>
    rcases hv with ⟨r', rfl⟩ | ⟨o', ho', rfl⟩ | ⟨k, c, b, t, ht, rfl⟩
  · by_cases e : r = r'
    · exact ⟨[], by simp [lower, normInsn, normAssign, vtypeAt, vtype, FVal.regOf, e]⟩
    · exact ⟨_, by simp [lower, normInsn, normAssign, vtypeAt, vtype, FVal.regOf, e, mapCat_cons, trInsn, trAssign]; rfl⟩
  · exact ⟨_, by
      simp [lower, normInsn, normAssign, vtypeAt, vtype, pt_stack _ ho', mapCat_cons, trInsn, trLoadraw, loadAddr,
        vrSize, stackPtr, stackPtrPos]; rfl⟩
  · cases t
    · exact absurd rfl ht
    · exact ⟨_, by simp [lower, normInsn, normAssign, vtypeAt, vtype, FVal.ctype, mapCat_cons, trInsn, trAssign]; rfl⟩
    · exact ⟨_, by simp [lower, normInsn, normAssign, vtypeAt, vtype, FVal.ctype, mapCat_cons, trInsn, trLoadimm]; rfl⟩
  · exact ⟨_, by
      simp [lower, normInsn, normAssign, vtypeAt, vtype, pt_stack _ ho, mapCat_cons, trInsn, trStoreraw, storeReg,
        vrSize, stackPtr, stackPtrPos]; rfl⟩
  · exact absurd ⟨⟨o, ho, rfl⟩, o', ho', rfl⟩ hss
  · exact ⟨_, by
      simp [lower, normInsn, normAssign, vtypeAt, vtype, pt_stack _ ho, mapCat_cons, trInsn, trStoreraw, storeConst,
        vrSize, stackPtr, stackPtrPos]; rfl⟩

/-- Spilling r4 to the slot at r10-16 and reading it back into r7. -/
example :
    (do let a ← lower { op := .assign, v0 := .pos (inReg 4), valueNum := 1, dst := inSlot (-16), vrType := .t64 }
        let b ← lower { op := .assign, v0 := .pos (inSlot (-16)), valueNum := 1, dst := inReg 7, vrType := .t64 }
        Out.ok (a ++ b)) =
      .ok [{ opcode := 0x7b, dst := 10, src := 4, off := -16 }, { opcode := 0x79, dst := 7, src := 10, off := -16 }] := by
  decide +kernel

example : regAfter 7 (do
    let a ← lower { op := .assign, v0 := .pos (inReg 4), valueNum := 1, dst := inSlot (-16), vrType := .t64 }
    let b ← lower { op := .assign, v0 := .pos (inSlot (-16)), valueNum := 1, dst := inReg 7, vrType := .t64 }
    Out.ok (a ++ b)) (ones.set 4 0x123456789abcdef0) = some 0x123456789abcdef0 := by
  decide +kernel

/-- C12 is violated: a 64-bit constant assigned to a stack slot is cut to 32 bits and sign-extended
(`normalize_assign`, core/ir_cg_norm.c:214-224, then `store_const_to_reg_mem`, 743-754). -/
theorem C12_violated_const64_to_stack :
    let i : FInsn := { op := .assign, v0 := .const .plain 0x1122334480000000 .w64 .none, valueNum := 1,
                       dst := inSlot (-8) }
    (Flat.exec noWorld i ones).map (fun τ => Bpf.load 8 τ.mem (τ.reg 10 - 8)) = some 0x1122334480000000 ∧
    (match lower i with
     | .ok ps => (execLine noWorld (slotsOf ps) ones).map (fun τ => Bpf.load 8 τ.mem (τ.reg 10 - 8))
     | _ => none) = some 0xffffffff80000000 := by
  refine ⟨?_, ?_⟩ <;> decide +kernel

/-- C12 is violated: a stack-to-stack copy aborts. -/
theorem C12_violated_stack_to_stack :
    lower { op := .assign, v0 := .pos (inSlot (-8)), valueNum := 1, dst := inSlot (-16) } = .crit := rfl

/-- C12 is violated for 32-bit assignments between registers (as created by the code compaction pass):
the full 64-bit register is copied (`translate_reg_to_reg`, core/ir_cg_norm.c:660-669). -/
theorem C12_violated_assign32 :
    let i : FInsn := { op := .assign, v0 := .pos (inReg 2), valueNum := 1, dst := inReg 1, aluOp := .w32 }
    (Flat.exec noWorld i ones).map (fun τ => τ.reg 1) = some 0xffffffff ∧
    regAfter 1 (lower i) ones = some 0xffffffffffffffff := by
  refine ⟨?_, ?_⟩ <;> decide +kernel

/-! ## C13: return -/

/-- C13.  The code of a return runs to an exit whose value is the returned operand; nothing but r0 has
changed.  Excluded: constants that are not the sign extension of their low half. -/
theorem C13_return_partial (W : World) (i : FInsn) (σ : St) (x : BitVec 64) (ps : List Pre)
    (hop : i.op = .ret) (hn : i.valueNum = 0 ∨ i.valueNum = 1)
    (hv : i.valueNum = 1 → ∀ k c ct b, i.v0 = .const k c ct b → (c.setWidth 32).signExtend 64 = c)
    (hspec : Flat.retVal i σ = some x) (hl : lower i = .ok ps) :
    ∃ n, Bpf.run W (slotsOf ps) n 0 σ = .done x (σ.set 0 x) := by
  obtain ⟨pre, rfl, hpre⟩ := lower_ret (W := W) hop hn hv hspec hl
  have hat : At (slotsOf (pre ++ [exitP])) 0 (slotsOf pre ++ exitP.slots) := by
    have := At.self (slotsOf (pre ++ [exitP]))
    simpa using this
  obtain ⟨n, hr⟩ := run_line (W := W) (slotsOf pre) σ 0 _ hat.left hpre
  have hat2 := hat.right
  refine ⟨n + 1, ?_⟩
  have h1 := hr 1
  have hdec : decode ⟨0x95, 0, 0, 0, 0⟩ = some .exit := by decide
  have hst := step_exit (W := W) (σ := σ.set 0 x) (hat2.head (L := [])) hdec
  simp only [Int.ofNat_zero, Int.natCast_zero] at h1
  rw [h1, run, hst]
  simp

/-- Registers and 32-bit constants are compiled. -/
theorem C13_supported (v : FVal) (hv : RegOrConst v) :
    ∃ ps, lower { op := .ret, v0 := v, valueNum := 1 } = .ok ps := by
  rcases hv with ⟨r, rfl⟩ | ⟨k, b, c, rfl⟩
  · by_cases e : (0 : Reg) = r
    · exact ⟨_, by simp [lower, normInsn, normRet, mapCat_cons, trInsn, trAssign, mkAssign, vtypeAt, vtype,
        FVal.regOf, ← e]; rfl⟩
    · exact ⟨_, by simp [lower, normInsn, normRet, mapCat_cons, trInsn, trAssign, mkAssign, vtypeAt, vtype,
        FVal.regOf, e]; rfl⟩
  · exact ⟨_, by simp [lower, normInsn, normRet, mapCat_cons, trInsn, trAssign, mkAssign, vtypeAt, vtype]; rfl⟩

example : lower { op := .ret, v0 := const32 (-2), valueNum := 1 } =
    .ok [{ opcode := 0xb7, imm := -2 }, { opcode := 0x95 }] := by decide +kernel

/-- C13 is violated: returning a 64-bit constant truncates it (`normalize_ret`,
core/ir_cg_norm.c:577-596, inserts an assignment that is not normalized again). -/
theorem C13_violated_const64 :
    let i : FInsn := { op := .ret, v0 := .const .plain 0x100000000 .w64 .none, valueNum := 1 }
    Flat.retVal i ones = some 0x100000000 ∧
    lower i = .ok [{ opcode := 0xb7, imm := 0 }, exitP] ∧
    regAfter 0 (.ok [{ opcode := 0xb7, imm := 0 }]) ones = some 0 := by
  refine ⟨?_, ?_, ?_⟩ <;> decide +kernel

/-- C13 is violated: a return of a stack slot aborts. -/
theorem C13_violated_stack : lower { op := .ret, v0 := .pos (inSlot (-8)), valueNum := 1 } = .crit := rfl

/-! ## C14: unary operations, element pointers, memory -/

/-- C14, negation and byte swap: any successful compilation is right. -/
theorem C14_unary (W : World) (i : FInsn) (σ σ' : St) (ps : List Pre)
    (hop : i.op = .neg ∨ i.op = .htobe ∨ i.op = .htole) (hn : i.valueNum = 1)
    (hspec : Flat.exec W i σ = some σ') (hl : lower i = .ok ps) :
    execLine W (slotsOf ps) σ = some σ' := by
  rcases hop with h | h
  · exact lower_neg h hn hspec hl
  · exact lower_end h hn hspec hl

/-- Negation and byte swap of a register into a register are always compiled. -/
theorem C14_unary_supported (i : FInsn) (r d : Reg) (hop : i.op = .neg ∨ i.op = .htobe ∨ i.op = .htole)
    (hn : i.valueNum = 1) (h0 : i.v0 = .pos (inReg r)) (hd : i.dst = inReg d) : ∃ ps, lower i = .ok ps := by
  rcases i with ⟨op, v0, v1, vn, vt, addr, ao, al, bb1, bb2, aux, ik, i64, dst⟩
  simp only at *
  subst hn h0 hd
  by_cases e : r = d
  · subst e
    rcases hop with rfl | rfl | rfl <;>
      exact ⟨_, by simp [lower, normInsn, normUnary, vtypeAt, vtype, FVal.regOf, mapCat_cons, trInsn, trNeg, trEnd]; rfl⟩
  · have e' : d ≠ r := fun h => e h.symm
    rcases hop with rfl | rfl | rfl <;>
      exact ⟨_, by simp [lower, normInsn, normUnary, vtypeAt, vtype, FVal.regOf, mapCat_cons, trInsn, trNeg, trEnd,
        trAssign, mkAssign, e, e']; rfl⟩

/-- C14 is violated: negation of a spilled operand aborts (the assignment that reads the slot is not
normalized, `cgir_load_stack_to_reg_norm`, core/ir_cg_norm.c:162-173). -/
theorem C14_violated_neg_stack :
    lower { op := .neg, v0 := .pos (inSlot (-8)), valueNum := 1, aluOp := .w64, dst := inReg 1 } = .crit := rfl

/-- C14, element pointer.  Excluded: an index constant whose distance from the frame pointer does not
fit in 32 bits; the destination is never r10. -/
theorem C14_getelemptr_partial (W : World) (i : FInsn) (σ σ' : St) (ps : List Pre)
    (hop : i.op = .getelemptr) (hn : i.valueNum = 2) (hd10 : i.dst.reg ≠ 10)
    (hv : ∀ p, i.v1 = .pos p → PosOk p)
    (hc : ∀ k c ct b, i.v0 = .const k c ct b →
      -2147483648 < (c + BitVec.ofInt 64 i.v1.spillOf).toInt ∧
      (c + BitVec.ofInt 64 i.v1.spillOf).toInt < 2147483648)
    (hspec : Flat.exec W i σ = some σ') (hl : lower i = .ok ps) :
    execLine W (slotsOf ps) σ = some σ' :=
  lower_getelemptr hop hn hd10 hv hc hspec hl

/-- Element 4 of an array at r10-32, and element r3. -/
example :
    lower { op := .getelemptr, v0 := const32 4, v1 := .pos (inSlot (-32)), valueNum := 2, dst := inReg 2 } =
      .ok [{ opcode := 0xbf, dst := 2, src := 10 }, { opcode := 0x17, dst := 2, imm := 28 }] ∧
    lower { op := .getelemptr, v0 := .pos (inReg 3), v1 := .pos (inSlot (-32)), valueNum := 2, dst := inReg 2 } =
      .ok [{ opcode := 0xbf, dst := 2, src := 3 }, { opcode := 0x0f, dst := 2, src := 10 },
           { opcode := 0x07, dst := 2, imm := -32 }] := by
  refine ⟨?_, ?_⟩ <;> decide +kernel

/-- C14 is violated: a spilled index aborts in translation. -/
theorem C14_violated_getelemptr_stack :
    lower { op := .getelemptr, v0 := .pos (inSlot (-8)), v1 := .pos (inSlot (-32)), valueNum := 2,
            dst := inReg 2 } = .crit := rfl

/-- C14, store to a variable. -/
theorem C14_store_partial (W : World) (i : FInsn) (σ σ' : St) (ps : List Pre)
    (hop : i.op = .store) (hal : i.aluOp ≠ .w32)
    (hv : ValOk i.v1) (hd : ∀ p, i.v0 = .pos p → PosOk p) (hct : ∀ k c b, i.v1 ≠ .const k c .unknown b)
    (h64 : ∀ p, i.v0 = .pos p → posType p = .stack → i.v1.ctype ≠ .w64)
    (hload : ∀ p, i.v1 = .pos p → posType p = .stack → i.vrType = .t64)
    (hspec : Flat.exec W i σ = some σ') (hl : lower i = .ok ps) :
    execLine W (slotsOf ps) σ = some σ' :=
  lower_store hop hal hv hd hct h64 hload hspec hl

/-- C14, load of a variable.  Excluded: a variable kept in a register whose contents do not fit its
type. -/
theorem C14_load_partial (W : World) (i : FInsn) (σ σ' : St) (ps : List Pre)
    (hop : i.op = .load) (hn : i.valueNum = 1) (hpos : ∃ p, i.v0 = .pos p ∧ PosOk p) (hd : PosOk i.dst)
    (hfit : ∀ p n, i.v0 = .pos p → posType p = .reg → Flat.bytes i.vrType = some n →
      Flat.truncBytes n (σ.reg p.reg) = σ.reg p.reg)
    (hspec : Flat.exec W i σ = some σ') (hl : lower i = .ok ps) :
    execLine W (slotsOf ps) σ = some σ' :=
  lower_load hop hn hpos hd hfit hspec hl

/-- C14 is violated: an 8-bit variable kept in a register is loaded with all 64 bits, although the same
variable in a stack slot yields 8 bits. -/
theorem C14_violated_load_narrow :
    regAfter 1 (lower { op := .load, v0 := .pos (inReg 2), valueNum := 1, dst := inReg 1, vrType := .t8 })
      (ones.set 2 0x1ff) = some 0x1ff ∧
    regAfter 1 (do
      let a ← lower { op := .store, v0 := .pos (inSlot (-8)), v1 := .pos (inReg 2), valueNum := 2, vrType := .t8 }
      let b ← lower { op := .load, v0 := .pos (inSlot (-8)), valueNum := 1, dst := inReg 1, vrType := .t8 }
      Out.ok (a ++ b)) (ones.set 2 0x1ff) = some 0xff := by
  refine ⟨?_, ?_⟩ <;> decide +kernel

/-- C14, raw loads.  Excluded: constant addresses. -/
theorem C14_loadraw_partial (W : World) (i : FInsn) (σ σ' : St) (ps : List Pre)
    (hop : i.op = .loadraw) (hca : ∀ k c ct b, i.addr ≠ .const k c ct b)
    (hoff : ∀ p, i.addr = .pos p → posType p = .stack →
      -32768 ≤ i.addrOff.toInt + p.spilled ∧ i.addrOff.toInt + p.spilled < 32768)
    (hspec : Flat.exec W i σ = some σ') (hl : lower i = .ok ps) :
    execLine W (slotsOf ps) σ = some σ' :=
  lower_loadraw hop hca hoff hspec hl

/-- C14 is violated: a load from a constant address becomes a load of the address itself
(`load_addr_to_reg`, core/ir_cg_norm.c:718-724). -/
theorem C14_violated_loadraw_const :
    let i : FInsn := { op := .loadraw, addr := .const .plain 4096 .w64 .none, vrType := .t64, dst := inReg 1 }
    (Flat.exec noWorld i ones).map (fun τ => τ.reg 1) = some 0 ∧ regAfter 1 (lower i) ones = some 4096 := by
  refine ⟨?_, ?_⟩ <;> decide +kernel

/-- C14, raw stores.  Excluded: 8-byte stores of constants that need more than 32 bits. -/
theorem C14_storeraw_partial (W : World) (i : FInsn) (σ σ' : St) (ps : List Pre)
    (hop : i.op = .storeraw) (hn : i.valueNum = 1)
    (hoff : ∀ p, i.addr = .pos p → posType p = .stack →
      -32768 ≤ i.addrOff.toInt + p.spilled ∧ i.addrOff.toInt + p.spilled < 32768)
    (hc : ∀ k c ct b, i.v0 = .const k c ct b → i.vrType = .t64 → (c.setWidth 32).signExtend 64 = c)
    (hspec : Flat.exec W i σ = some σ') (hl : lower i = .ok ps) :
    execLine W (slotsOf ps) σ = some σ' :=
  lower_storeraw hop hn hoff hc hspec hl

/-- C14 is violated: a 64-bit constant stored to memory is truncated. -/
theorem C14_violated_storeraw_const64 :
    let i : FInsn := { op := .storeraw, addr := .pos (inReg 1), v0 := .const .plain 0x100000000 .w64 .none,
                       valueNum := 1, vrType := .t64 }
    (Flat.exec noWorld i ones).map (fun τ => Bpf.load 8 τ.mem (τ.reg 1)) = some 0x100000000 ∧
    (match lower i with
     | .ok ps => (execLine noWorld (slotsOf ps) ones).map (fun τ => Bpf.load 8 τ.mem (τ.reg 1))
     | _ => none) = some 0 := by
  refine ⟨?_, ?_⟩ <;> decide +kernel

/-- C14, 64-bit immediates (including map references) and helper calls: no exclusion. -/
theorem C14_loadimm_call (W : World) (i : FInsn) (σ σ' : St) (ps : List Pre)
    (hop : i.op = .loadimm ∨ i.op = .call)
    (hspec : Flat.exec W i σ = some σ') (hl : lower i = .ok ps) :
    execLine W (slotsOf ps) σ = some σ' := by
  rcases hop with h | h
  · exact lower_loadimm h hspec hl
  · exact lower_call h hspec hl

example :
    lower { op := .loadraw, addr := .pos (inSlot (-64)), addrOff := 8, vrType := .t32, dst := inReg 3 } =
      .ok [{ opcode := 0x61, dst := 3, src := 10, off := -56 }] ∧
    lower { op := .storeraw, addr := .pos (inReg 6), addrOff := 4, v0 := const32 7, valueNum := 1, vrType := .t16 } =
      .ok [{ opcode := 0x6a, dst := 6, off := 4, imm := 7 }] ∧
    lower { op := .htobe, v0 := .pos (inReg 2), valueNum := 1, aux := 16, dst := inReg 1 } =
      .ok [{ opcode := 0xbf, dst := 1, src := 2 }, { opcode := 0xdc, dst := 1, imm := 16 }] := by
  refine ⟨?_, ?_, ?_⟩ <;> decide +kernel

end Verif.Norm
