import Verif.Spec.Flat
/-! # Helper lemmas: machine effect of each emitted instruction form -/
set_option linter.unusedSimpArgs false
namespace Verif.Norm
open Verif Verif.Bpf

theorem reg_mod (r : Reg) : r.val % 16 = r.val := by
  have := r.isLt; omega

theorem sext_trunc (c : BitVec 32) : (c.signExtend 64).setWidth 32 = c := by
  apply BitVec.eq_of_getLsbD_eq
  intro i hi
  rw [BitVec.getLsbD_setWidth, BitVec.getLsbD_signExtend]
  simp only [hi, show i < 64 by omega, decide_true, Bool.true_and, if_true]

/-- The machine code of a list of `Pre`. -/
def slotsOf (ps : List Pre) : List Slot := ps.flatMap Pre.slots

@[simp] theorem slotsOf_nil : slotsOf [] = [] := rfl
@[simp] theorem slotsOf_cons (p ps) : slotsOf (p :: ps) = p.slots ++ slotsOf ps := rfl
@[simp] theorem slotsOf_append (p q) : slotsOf (p ++ q) = slotsOf p ++ slotsOf q := by
  simp [slotsOf]

/-- Executing a list of `Pre`. -/
def execP (W : World) (ps : List Pre) (σ : St) : Option St := execLine W (slotsOf ps) σ

@[simp] theorem execP_nil (W σ) : execP W [] σ = some σ := by simp [execP, execLine]

theorem execP_regToReg (W d s ps σ) :
    execP W (regToReg d s :: ps) σ = execP W ps (σ.set d (σ.reg s)) := by
  simp [execP, Pre.slots, aluRegP, aluImmP, aluNegP, aluEndP, ldxP, stxP, stP, ldimmP, callP, regToReg, execLine, decode, execInstr, Bpf.aluOp, alu, aluW, Src.val, reg_mod]

theorem execP_constToReg (W d c t ps σ) :
    execP W (constToReg d c t :: ps) σ =
      execP W ps (σ.set d (if t = .w32 then (c.setWidth 32).setWidth 64
        else (c.setWidth 32).signExtend 64)) := by
  by_cases h : t = .w32 <;>
  simp [execP, Pre.slots, aluRegP, aluImmP, aluNegP, aluEndP, ldxP, stxP, stP, ldimmP, callP, constToReg, execLine, decode, execInstr, Bpf.aluOp, alu, aluW, Src.val, reg_mod, h,
    sext_trunc]

theorem execP_aluReg {W : World} {o : Op} {ao : AluOp} {c : BitVec 8} {t : AluTy} {d s : Reg} {ps σ}
    (h1 : Flat.aluOp o = some ao) (h2 : aluCode o = .ok c) :
    execP W (aluRegP d s t c :: ps) σ =
      execP W ps (σ.set d (alu (t = .w64) ao (σ.reg d) (σ.reg s))) := by
  by_cases h : t = .w64 <;> cases o <;> simp [Flat.aluOp] at h1 <;> subst h1 <;>
    simp [aluCode] at h2 <;> subst h2 <;>
    simp [execP, Pre.slots, aluRegP, aluImmP, aluNegP, aluEndP, ldxP, stxP, stP, ldimmP, callP, aluClass, execLine, decode, execInstr, Bpf.aluOp, Src.val, reg_mod, h]

theorem execP_aluImm {W : World} {o : Op} {ao : AluOp} {c : BitVec 8} {t : AluTy} {d : Reg} {v ps σ}
    (h1 : Flat.aluOp o = some ao) (h2 : aluCode o = .ok c) :
    execP W (aluImmP d v t c :: ps) σ =
      execP W ps (σ.set d (alu (t = .w64) ao (σ.reg d) ((v.setWidth 32).signExtend 64))) := by
  by_cases h : t = .w64 <;> cases o <;> simp [Flat.aluOp] at h1 <;> subst h1 <;>
    simp [aluCode] at h2 <;> subst h2 <;>
    simp [execP, Pre.slots, aluRegP, aluImmP, aluNegP, aluEndP, ldxP, stxP, stP, ldimmP, callP, aluClass, execLine, decode, execInstr, Bpf.aluOp, Src.val, reg_mod, h]

theorem execP_neg {W : World} {t : AluTy} {d : Reg} {ps σ} :
    execP W (aluNegP d t :: ps) σ =
      execP W ps (σ.set d (negate (t = .w64) (σ.reg d))) := by
  by_cases h : t = .w64 <;>
    simp [execP, Pre.slots, aluRegP, aluImmP, aluNegP, aluEndP, ldxP, stxP, stP, ldimmP, callP, aluClass, execLine, decode, execInstr, reg_mod, h]

theorem execP_end {W : World} {be : Bool} {d : Reg} {wd ps σ v}
    (h : swapVal be wd (σ.reg d) = some v) :
    execP W (aluEndP d wd (if be then (0x08 : BitVec 8) else 0x00) :: ps) σ =
      execP W ps (σ.set d v) := by
  cases be <;>
    simp [execP, Pre.slots, aluRegP, aluImmP, aluNegP, aluEndP, ldxP, stxP, stP, ldimmP, callP, execLine, decode, execInstr, reg_mod, h]

theorem vrSize_cases {t : VrTy} {sz : BitVec 8} {n : Nat} (h1 : vrSize t = .ok sz)
    (h2 : Flat.bytes t = some n) :
    (sz = 0 ∧ n = 4) ∨ (sz = 0x08 ∧ n = 2) ∨ (sz = 0x10 ∧ n = 1) ∨ (sz = 0x18 ∧ n = 8) := by
  cases t <;> simp_all [vrSize, Flat.bytes]

theorem execP_ldx {W : World} {t : VrTy} {sz : BitVec 8} {n : Nat} {d s : Reg} {off ps σ}
    (h1 : vrSize t = .ok sz) (h2 : Flat.bytes t = some n) :
    execP W (ldxP d s off sz :: ps) σ =
      execP W ps (σ.set d (Bpf.load n σ.mem (σ.reg s + off.signExtend 64))) := by
  rcases vrSize_cases h1 h2 with ⟨rfl, rfl⟩ | ⟨rfl, rfl⟩ | ⟨rfl, rfl⟩ | ⟨rfl, rfl⟩ <;>
    simp [execP, Pre.slots, aluRegP, aluImmP, aluNegP, aluEndP, ldxP, stxP, stP, ldimmP, callP, execLine, decode, execInstr, reg_mod, Bpf.sizeOf, Size.bytes]

theorem execP_stx {W : World} {t : VrTy} {sz : BitVec 8} {n : Nat} {d s : Reg} {off ps σ}
    (h1 : vrSize t = .ok sz) (h2 : Flat.bytes t = some n) :
    execP W (stxP d s off sz :: ps) σ =
      execP W ps { σ with mem := Bpf.store n σ.mem (σ.reg d + off.signExtend 64) (σ.reg s) } := by
  rcases vrSize_cases h1 h2 with ⟨rfl, rfl⟩ | ⟨rfl, rfl⟩ | ⟨rfl, rfl⟩ | ⟨rfl, rfl⟩ <;>
    simp [execP, Pre.slots, aluRegP, aluImmP, aluNegP, aluEndP, ldxP, stxP, stP, ldimmP, callP, execLine, decode, execInstr, reg_mod, Bpf.sizeOf, Size.bytes]

theorem execP_st {W : World} {t : VrTy} {sz : BitVec 8} {n : Nat} {d : Reg} {v off ps σ}
    (h1 : vrSize t = .ok sz) (h2 : Flat.bytes t = some n) :
    execP W (stP d v off sz :: ps) σ =
      execP W ps { σ with mem := Bpf.store n σ.mem (σ.reg d + off.signExtend 64) (v.signExtend 64) } := by
  rcases vrSize_cases h1 h2 with ⟨rfl, rfl⟩ | ⟨rfl, rfl⟩ | ⟨rfl, rfl⟩ | ⟨rfl, rfl⟩ <;>
    simp [execP, Pre.slots, aluRegP, aluImmP, aluNegP, aluEndP, ldxP, stxP, stP, ldimmP, callP, execLine, decode, execInstr, reg_mod, Bpf.sizeOf, Size.bytes]

theorem hi_lo (v : BitVec 64) : ((v >>> 32).setWidth 32 ++ v.setWidth 32 : BitVec 64) = v := by
  apply BitVec.eq_of_getLsbD_eq
  intro i hi
  rw [BitVec.getLsbD_append]
  by_cases h : i < 32
  · simp [h]
  · simp [h, BitVec.getLsbD_setWidth, show i - 32 < 32 by omega, show 32 + (i - 32) = i by omega]

theorem execP_ldimm {W : World} {k : Nat} {d : Reg} {v ps σ} (hk : k ≤ 6) :
    execP W (ldimmP d k v :: ps) σ =
      execP W ps (σ.set d (if k = 0 then v else W.ldimm k v)) := by
  have h4 : k % 16 = k := by omega
  have h0 : (BitVec.ofNat 4 k = 0#4) ↔ k = 0 := by
    rw [← BitVec.toNat_inj]; simp [h4]
  simp [execP, Pre.slots, aluRegP, aluImmP, aluNegP, aluEndP, ldxP, stxP, stP, ldimmP, callP, execLine, decode, reg_mod, ldVal, hi_lo, h0, h4]

theorem execP_call {W : World} {f ps σ} :
    execP W (callP f :: ps) σ = execP W ps (doCall W f σ) := by
  simp [execP, Pre.slots, aluRegP, aluImmP, aluNegP, aluEndP, ldxP, stxP, stP, ldimmP, callP, execLine, decode, execInstr]

/-! ## Values and places -/

theorem posType_reg {p : VrPos} : posType p = .reg ↔ p.allocated = true ∧ p.spilled = 0 := by
  unfold posType; split <;> simp_all

theorem posType_stack {p : VrPos} : posType p = .stack ↔ p.allocated = true ∧ p.spilled ≠ 0 := by
  unfold posType; split <;> simp_all

theorem posType_ne_const {p : VrPos} : posType p ≠ .const := by
  unfold posType; split <;> simp; split <;> simp

theorem val_cases {σ : St} {v : FVal} {x : BitVec 64} (h : Flat.val σ v = some x) :
    (∃ k c ct b, v = .const k c ct b ∧ x = c) ∨
    (∃ p, v = .pos p ∧ posType p = .reg ∧ x = σ.reg p.reg) ∨
    (∃ p, v = .pos p ∧ posType p = .stack ∧ x = Bpf.load 8 σ.mem (Flat.slotAddr σ p.spilled)) := by
  cases v with
  | const k c ct b => left; simp [Flat.val] at h; exact ⟨_, _, _, _, rfl, h.symm⟩
  | other => simp [Flat.val] at h
  | pos p =>
    right
    cases hp : posType p <;> simp [Flat.val, hp] at h
    · exact Or.inl ⟨p, rfl, hp, h.symm⟩
    · exact Or.inr ⟨p, rfl, hp, h.symm⟩

/-- A constant marked as 32-bit is the sign extension of its low half (how `bpf_ir_value_const32`
builds it). -/
def ConstOk : FVal → Prop
  | .const _ c ct _ => ct = .w32 → (c.setWidth 32).signExtend 64 = c
  | _ => True

/-- A stack position is addressable by a 16-bit offset. -/
def PosOk (p : VrPos) : Prop := -32768 ≤ p.spilled ∧ p.spilled < 32768

def ValOk : FVal → Prop
  | .pos p => PosOk p
  | v => ConstOk v

theorem ofInt_off {o : Int} (h : -32768 ≤ o ∧ o < 32768) :
    (BitVec.ofInt 16 o).signExtend 64 = BitVec.ofInt 64 o := by
  apply BitVec.eq_of_toInt_eq
  rw [BitVec.toInt_signExtend, BitVec.toInt_ofInt, BitVec.toInt_ofInt]
  simp [Int.bmod]; omega

@[simp] theorem set_set (σ : St) (d : Nat) (a b : BitVec 64) : (σ.set d a).set d b = σ.set d b := by
  simp only [St.set, St.mk.injEq, and_true]
  funext i; split <;> rfl

@[simp] theorem set_reg (σ : St) (d : Nat) (a : BitVec 64) : (σ.set d a).reg d = a := by simp [St.set]

theorem set_reg_ne (σ : St) {d e : Nat} (a : BitVec 64) (h : e ≠ d) : (σ.set d a).reg e = σ.reg e := by
  simp [St.set, h]

@[simp] theorem set_mem (σ : St) (d : Nat) (a : BitVec 64) : (σ.set d a).mem = σ.mem := rfl

theorem set_self (σ : St) (d : Nat) : σ.set d (σ.reg d) = σ := by
  cases σ
  simp only [St.set, St.mk.injEq, and_true]
  funext i; split <;> simp_all

end Verif.Norm
