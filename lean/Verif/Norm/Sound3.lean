import Verif.Norm.Sound2
/-! # Lowering of element pointers, returns and conditional jumps (helper theorems) -/
set_option linter.unusedSimpArgs false
namespace Verif.Norm
open Verif Verif.Bpf

theorem sext_of_range {t : BitVec 64} (h1 : -2147483648 ≤ t.toInt) (h2 : t.toInt < 2147483648) :
    (t.setWidth 32).signExtend 64 = t := by
  apply BitVec.eq_of_toInt_eq
  rw [BitVec.toInt_signExtend, BitVec.toInt_setWidth]
  have := t.toInt_eq_toNat_cond
  have h3 := t.isLt
  simp [Int.bmod] at *
  split at this <;> omega

theorem neg_toInt {t : BitVec 64} (h1 : -2147483648 < t.toInt) (h2 : t.toInt < 0) :
    (-t).toInt = -t.toInt := by
  rw [BitVec.toInt_neg]
  simp [Int.bmod]; omega

theorem ofInt32_sext {s : Int} (h : -32768 ≤ s ∧ s < 32768) :
    (BitVec.ofInt 32 s).signExtend 64 = BitVec.ofInt 64 s := by
  apply BitVec.eq_of_toInt_eq
  rw [BitVec.toInt_signExtend, BitVec.toInt_ofInt, BitVec.toInt_ofInt]
  simp [Int.bmod]; omega

/-- `GETELEMPTR`. -/
theorem lower_getelemptr {W : World} {i : FInsn} {σ σ' : St} {ps : List Pre}
    (hop : i.op = .getelemptr) (hn : i.valueNum = 2) (hd10 : i.dst.reg ≠ 10)
    (hv : ∀ p, i.v1 = .pos p → PosOk p)
    (hc : ∀ k c ct b, i.v0 = .const k c ct b →
      -2147483648 < (c + BitVec.ofInt 64 i.v1.spillOf).toInt ∧
      (c + BitVec.ofInt 64 i.v1.spillOf).toInt < 2147483648)
    (hs : Flat.exec W i σ = some σ') (hl : lower i = .ok ps) :
    execP W ps σ = some σ' := by
  rcases i with ⟨op, v0, v1, vn, vt, addr, ao, al, bb1, bb2, aux, ik, i64, dst⟩
  simp only at *
  subst hop hn
  simp only [Flat.exec, Option.bind_eq_bind, Option.bind_eq_some_iff] at hs
  obtain ⟨x, hx, a, ha, hp⟩ := hs
  have hstk : ∃ r s, v1 = .pos ⟨true, r, s⟩ ∧ s ≠ 0 := by
    rcases val_cases' hx with ⟨k, c, ct, b, rfl, rfl⟩ | ⟨r, rfl, rfl⟩ | ⟨r, s, hs, rfl, rfl⟩ <;>
    · cases v1 with
      | const k c ct b => simp [lower, normInsn, normGetelemptr, vtypeAt, vtype] at hl
      | other => simp [Flat.addrVal] at ha
      | pos p =>
        cases hpt : posType p <;>
          first
          | (simp [Flat.addrVal, hpt] at ha; done)
          | (simp [lower, normInsn, normGetelemptr, vtypeAt, vtype, hpt] at hl; done)
          | (obtain ⟨h1, h2⟩ := posType_stack.1 hpt
             rcases p with ⟨pa, r, s⟩
             simp at h1 h2
             exact ⟨r, s, by rw [h1], h2⟩)
  obtain ⟨r1, s1, rfl, hs1⟩ := hstk
  have hb : -32768 ≤ s1 ∧ s1 < 32768 := hv _ rfl
  simp [Flat.addrVal, pt_stack _ hs1] at ha
  subst ha
  rcases put_cases hp with ⟨d, rfl, rfl⟩ | ⟨d, s', hs', rfl, rfl⟩
  rotate_left
  · exfalso
    have hbeq : (s' == 0) = false := by simpa using hs'
    rcases val_cases' hx with ⟨k, c, ct, b, rfl, rfl⟩ | ⟨r, rfl, rfl⟩ | ⟨r, s, hs, rfl, rfl⟩ <;>
      simp [lower, normInsn, normGetelemptr, vtypeAt, vtype, pt_stack _ hs1, hbeq, FVal.spillOf] at hl
  rcases val_cases' hx with ⟨k, c, ct, b, rfl, rfl⟩ | ⟨r, rfl, rfl⟩ | ⟨r, s, hs, rfl, rfl⟩
  · obtain ⟨hc1, hc2⟩ := hc _ _ _ _ rfl
    simp only [FVal.spillOf] at hc1 hc2
    cases ct <;> simp [lower, normInsn, normGetelemptr, vtypeAt, vtype, pt_stack _ hs1, FVal.spillOf,
      FVal.ctype, FVal.constOf] at hl
    by_cases hneg : (x + BitVec.ofInt 64 s1).slt 0
    · simp at hneg
      simp [hneg] at hl
      have ht : (x + BitVec.ofInt 64 s1).toInt < 0 := by
        simpa [BitVec.slt] using hneg
      have hno : (-(x + BitVec.ofInt 64 s1)).toInt = -(x + BitVec.ofInt 64 s1).toInt := neg_toInt hc1 ht
      refine lower_alu (a := .sub)
        (i := ⟨.sub, stackPtr, const32 ((-(x + BitVec.ofInt 64 s1)).setWidth 32), 2, vt, addr, ao, .w64,
          bb1, bb2, aux, ik, i64, ⟨true, d, 0⟩⟩) rfl rfl ?_ ?_ ?_ ?_ ?_ (by
          simpa [lower, normInsn, Op.binAlu] using hl)
      · simp [ValOk, stackPtr, stackPtrPos, PosOk]
      · simp [ValOk, const32, ConstOk, sext_trunc]
      · simp [DropsAdd0]
      · simp [SubSelf, const32]
      · have hval : (BitVec.setWidth 32 (-(x + BitVec.ofInt 64 s1))).signExtend 64 = -(x + BitVec.ofInt 64 s1) :=
          sext_of_range (by omega) (by omega)
        simp only [Flat.exec, Flat.aluOp, Flat.width, Flat.val, stackPtr, stackPtrPos, const32, pt_reg, ten,
          Option.bind_eq_bind, Option.bind_some, hval, alu, aluW, if_true, Flat.put, Option.some.injEq]
        simp only [Flat.slotAddr]
        congr 1
        simp only [BitVec.sub_eq_add_neg, BitVec.neg_neg]
        rw [BitVec.add_comm x, BitVec.add_assoc]
    · simp at hneg
      simp [hneg] at hl
      refine lower_alu (a := .add)
        (i := ⟨.add, stackPtr, const32 ((x + BitVec.ofInt 64 s1).setWidth 32), 2, vt, addr, ao, .w64,
          bb1, bb2, aux, ik, i64, ⟨true, d, 0⟩⟩) rfl rfl ?_ ?_ ?_ ?_ ?_ (by
          simpa [lower, normInsn, Op.binAlu] using hl)
      · simp [ValOk, stackPtr, stackPtrPos, PosOk]
      · simp [ValOk, const32, ConstOk, sext_trunc]
      · simp [DropsAdd0]
      · simp [SubSelf, const32]
      · have hval : (BitVec.setWidth 32 (x + BitVec.ofInt 64 s1)).signExtend 64 = (x + BitVec.ofInt 64 s1) :=
          sext_of_range (by omega) (by omega)
        simp only [Flat.exec, Flat.aluOp, Flat.width, Flat.val, stackPtr, stackPtrPos, const32, pt_reg, ten,
          Option.bind_eq_bind, Option.bind_some, hval, alu, aluW, if_true, Flat.put, Option.some.injEq]
        simp only [Flat.slotAddr]
        congr 1
        rw [BitVec.add_comm x, BitVec.add_assoc]
  · simp only at hd10
    have hd10' : (10 : Nat) ≠ d := by
      intro h; apply hd10; apply Fin.ext; rw [← h]; rfl
    -- the two additions that follow once the index is in `d`
    have tail : ∀ (τ : St) (q : List Pre), mapCat trInsn
        [{ op := .add, v0 := .pos ⟨true, d, 0⟩, v1 := stackPtr, valueNum := 2, aluOp := .w64, dst := ⟨true, d, 0⟩ },
         ⟨.add, .pos ⟨true, d, 0⟩, const32 (BitVec.ofInt 32 s1), 2, vt, addr, ao, .w64, bb1, bb2, aux, ik, i64,
          ⟨true, d, 0⟩⟩] = .ok q →
        execP W q τ = some (τ.set d (τ.reg d + τ.reg 10 + BitVec.ofInt 64 s1)) := by
      intro τ q hq
      obtain ⟨p1, p2, q1, q2, rfl⟩ := mapCat_ok_cons hq
      have q3 := mapCat_ok_one q2
      have s1' := trAlu_sound (W := W) (d := d) (a := .add) (w := true) (σ := τ) (y := τ.reg 10)
        rfl rfl rfl rfl rfl rfl (by intro k c ct b e; simp [stackPtr] at e) (by trivial)
        (by simp [stackPtr]) q1 p2
      rw [s1']
      have s2' := trAlu_sound (W := W) (d := d) (a := .add) (w := true)
        (σ := τ.set d (alu true .add (τ.reg d) (τ.reg 10))) (y := BitVec.ofInt 64 s1)
        rfl rfl rfl rfl rfl (by simp [Flat.val, const32, ofInt32_sext hb])
        (by intro k c ct b e; simp [const32] at e; exact e.2.2.1.symm)
        (by simp [ConstOk, const32, sext_trunc]) (by simp) q3 []
      simpa [alu, aluW] using s2'
    simp [lower, normInsn, normGetelemptr, vtypeAt, vtype, pt_stack _ hs1, FVal.spillOf, FVal.regOf] at hl
    by_cases e : r = d
    · subst e
      simp at hl
      rw [tail σ ps hl]
      simp only [Flat.slotAddr]
      congr 2
      rw [BitVec.add_comm (σ.reg r), BitVec.add_assoc, BitVec.add_comm (σ.reg r), BitVec.add_assoc]
    · simp [e] at hl
      obtain ⟨p1, p2, q1, q2, rfl⟩ := mapCat_ok_cons hl
      have e' : d ≠ r := fun h => e h.symm
      simp [trInsn, trAssign, mkAssign, vtypeAt, vtype, FVal.regOf, e'] at q1
      subst q1
      simp only [List.cons_append, List.nil_append]
      rw [execP_regToReg, tail _ _ q2, set_reg_ne _ _ hd10']
      simp only [Flat.slotAddr, set_reg, set_set]
      congr 2
      rw [BitVec.add_comm (σ.reg r), BitVec.add_assoc, BitVec.add_comm (σ.reg r), BitVec.add_assoc]
  · simp [lower, normInsn, normGetelemptr, vtypeAt, vtype, pt_stack _ hs1, pt_stack _ hs, FVal.spillOf, mapCat_cons,
      trInsn, Op.binAlu, trAlu] at hl

/-! ## Return -/

/-- Straight-line code placed in front of other code is executed step by step. -/
theorem lower_ret {W : World} {i : FInsn} {σ : St} {ps : List Pre} {x : BitVec 64}
    (hop : i.op = .ret) (hn : i.valueNum = 0 ∨ i.valueNum = 1)
    (hv : i.valueNum = 1 → ∀ k c ct b, i.v0 = .const k c ct b → (c.setWidth 32).signExtend 64 = c)
    (hs : Flat.retVal i σ = some x) (hl : lower i = .ok ps) :
    ∃ pre, ps = pre ++ [exitP] ∧ execP W pre σ = some (σ.set 0 x) := by
  rcases i with ⟨op, v0, v1, vn, vt, addr, ao, al, bb1, bb2, aux, ik, i64, dst⟩
  simp only at *
  subst hop
  rcases hn with rfl | rfl
  · simp [lower, normInsn, normRet, mapCat_cons, trInsn] at hl
    simp [Flat.retVal] at hs
    subst hl hs
    exact ⟨[], rfl, by simp [set_self]⟩
  · simp [Flat.retVal] at hs
    rcases val_cases' hs with ⟨k, c, ct, b, rfl, rfl⟩ | ⟨r, rfl, rfl⟩ | ⟨r, s, hs2, rfl, rfl⟩
    · simp [lower, normInsn, normRet, mapCat_cons, trInsn, trAssign, mkAssign, vtypeAt, vtype, FVal.constOf] at hl
      subst hl
      refine ⟨[_], rfl, ?_⟩
      have := hv rfl _ _ _ _ rfl
      simp [execP_constToReg, this]
    · simp [lower, normInsn, normRet, mapCat_cons, trInsn, trAssign, mkAssign, vtypeAt, vtype, FVal.regOf] at hl
      by_cases e : (0 : Reg) = r
      · subst e
        simp at hl
        subst hl
        exact ⟨[], rfl, by simp [set_self]⟩
      · simp [e] at hl
        subst hl
        refine ⟨[_], rfl, ?_⟩
        simp [execP_regToReg]
    · simp [lower, normInsn, normRet, vtypeAt, vtype, pt_stack _ hs2] at hl

theorem exitP_slots : exitP.slots = [⟨0x95, 0, 0, 0, 0⟩] := rfl

/-! ## Conditional jumps -/

/-- What the emitted jump slot does, whatever offset relocation writes into it. -/
def JumpSlot (W : World) (p : Pre) (σ : St) (b : Bool) : Prop :=
  ∃ s, p.slots = [s] ∧ ∀ (code : List Slot) (pc : Nat) (off : BitVec 16),
    code[pc]? = some { s with off := off } →
    Bpf.step W code pc σ = .goto (if b then pc + 1 + off.toInt else pc + 1) σ

theorem jumpSlot_reg {W : World} {o : Op} {c : Cond} {code8 : BitVec 8} {w : Bool} {t : AluTy} {d s : Reg} {σ : St}
    (h1 : Flat.condOp o = some c) (h2 : jmpCode o = .ok code8) (hw : Flat.width t = some w) :
    JumpSlot W (condJmpRegP d s t code8) σ (cond w c (σ.reg d) (σ.reg s)) := by
  refine ⟨_, rfl, ?_⟩
  intro code pc off hcode
  have hdec : decode ⟨(condJmpRegP d s t code8).opcode, BitVec.ofNat 4 d, BitVec.ofNat 4 s, off, 0⟩ =
      some (.jcc w c (BitVec.ofNat 4 d) (.reg (BitVec.ofNat 4 s)) off) := by
    cases t <;> simp [Flat.width] at hw <;> subst hw <;>
      cases o <;> simp [Flat.condOp] at h1 <;> subst h1 <;> simp [jmpCode] at h2 <;> subst h2 <;>
      simp [condJmpRegP, jmpClass, decode, Bpf.condOp]
  have hs : code[pc]? = some ⟨(condJmpRegP d s t code8).opcode, BitVec.ofNat 4 d, BitVec.ofNat 4 s, off, 0⟩ := hcode
  have hp : ¬ ((pc : Int) < 0) := by omega
  simp only [Bpf.step, if_neg hp, Int.toNat_natCast, hs, hdec, Src.val, BitVec.toNat_ofNat]
  rw [show (2 : Nat) ^ 4 = 16 from rfl, reg_mod, reg_mod]
  split <;> simp_all

theorem jumpSlot_imm {W : World} {o : Op} {c : Cond} {code8 : BitVec 8} {w : Bool} {t : AluTy} {d : Reg} {v : BitVec 64}
    {σ : St} (h1 : Flat.condOp o = some c) (h2 : jmpCode o = .ok code8) (hw : Flat.width t = some w) :
    JumpSlot W (condJmpImmP d v t code8) σ (cond w c (σ.reg d) ((v.setWidth 32).signExtend 64)) := by
  refine ⟨_, rfl, ?_⟩
  intro code pc off hcode
  have hdec : decode ⟨(condJmpImmP d v t code8).opcode, BitVec.ofNat 4 d, 0, off, v.setWidth 32⟩ =
      some (.jcc w c (BitVec.ofNat 4 d) (.imm (v.setWidth 32)) off) := by
    cases t <;> simp [Flat.width] at hw <;> subst hw <;>
      cases o <;> simp [Flat.condOp] at h1 <;> subst h1 <;> simp [jmpCode] at h2 <;> subst h2 <;>
      simp [condJmpImmP, jmpClass, decode, Bpf.condOp]
  have hs : code[pc]? = some ⟨(condJmpImmP d v t code8).opcode, BitVec.ofNat 4 d, 0, off, v.setWidth 32⟩ := hcode
  have hp : ¬ ((pc : Int) < 0) := by omega
  simp only [Bpf.step, if_neg hp, Int.toNat_natCast, hs, hdec, Src.val, BitVec.toNat_ofNat]
  rw [show (2 : Nat) ^ 4 = 16 from rfl, reg_mod]
  split <;> simp_all

theorem jumpSlot_ja {W : World} {σ : St} : JumpSlot W jaP σ true := by
  refine ⟨_, rfl, ?_⟩
  intro code pc off hcode
  have hp : ¬ ((pc : Int) < 0) := by omega
  have hs : code[pc]? = some ⟨0x05, 0, 0, off, 0⟩ := hcode
  have hdec : decode ⟨0x05, 0, 0, off, 0⟩ = some (.ja off) := by simp [decode]
  simp only [Bpf.step, if_neg hp, Int.toNat_natCast, hs, hdec]
  rfl

theorem condW_swap {o o' : Op} {c c' : Cond} (h1 : Flat.condOp o = some c) (h : swapCond o = some o')
    (h2 : Flat.condOp o' = some c') (n : Nat) (x y : BitVec n) : condW n c' y x = condW n c x y := by
  cases o <;> simp only [swapCond, Option.some.injEq, reduceCtorEq] at h <;> subst h <;>
    simp only [Flat.condOp, Option.some.injEq] at h1 h2 <;> subst h1 h2 <;> simp only [condW]
  · exact BEq.comm
  · simp only [bne]; rw [BEq.comm]

theorem cond_swap {o o' : Op} {c c' : Cond} (h1 : Flat.condOp o = some c) (h : swapCond o = some o')
    (h2 : Flat.condOp o' = some c') (w : Bool) (x y : BitVec 64) : cond w c' y x = cond w c x y := by
  cases w <;> simp [Bpf.cond, condW_swap h1 h h2]

theorem condOp_swap {o : Op} {c : Cond} (h1 : Flat.condOp o = some c) :
    ∃ o' c', swapCond o = some o' ∧ Flat.condOp o' = some c' := by
  cases o <;> simp [Flat.condOp] at h1 <;> simp [swapCond, Flat.condOp]

theorem condOp_jmpCode {o : Op} {c : Cond} (h1 : Flat.condOp o = some c) :
    ∃ k, jmpCode o = .ok k ∧ o.condJmp = true ∧ o.binAlu = false := by
  cases o <;> simp [Flat.condOp] at h1 <;> simp [jmpCode, Op.condJmp, Op.binAlu]

/-- The last step: a comparison whose first operand is a register. -/
theorem trCondJmp_sound {W : World} {j : FInsn} {σ : St} {ps : List Pre} {c : Cond} {w : Bool} {x y : BitVec 64}
    (h1 : Flat.condOp j.op = some c) (hw : Flat.width j.aluOp = some w) (hn : j.valueNum = 2)
    (hx : Flat.val σ j.v0 = some x) (hy : Flat.val σ j.v1 = some y)
    (hok : ∀ k v ct b, j.v1 = .const k v ct b → ct ≠ .w64 → (v.setWidth 32).signExtend 64 = v)
    (hl : trInsn j = .ok ps) : ∃ p, ps = [p] ∧ JumpSlot W p σ (cond w c x y) := by
  obtain ⟨k8, hk, hcj, hba⟩ := condOp_jmpCode h1
  have htr : trInsn j = trCondJmp j := by
    cases ho : j.op <;> simp [ho, Flat.condOp] at h1 <;> simp [trInsn, ho, Op.binAlu, Op.condJmp]
  rw [htr] at hl
  rcases val_cases' hx with ⟨k, c0, ct, b, h, rfl⟩ | ⟨r, h, rfl⟩ | ⟨r, s, hs, h, rfl⟩
  · rcases val_cases' hy with ⟨k', c0', ct', b', h', rfl⟩ | ⟨r', h', rfl⟩ | ⟨r', s', hs', h', rfl⟩
    · simp [trCondJmp, vtypeAt, vtype, h, h', hn] at hl
    · simp [trCondJmp, vtypeAt, vtype, h, h', hn] at hl
    · simp [trCondJmp, vtypeAt, vtype, h, h', hn, pt_stack _ hs'] at hl
  · rcases val_cases' hy with ⟨k', c0', ct', b', h', rfl⟩ | ⟨r', h', rfl⟩ | ⟨r', s', hs', h', rfl⟩
    · by_cases e : ct' = .w64
      · simp [trCondJmp, vtypeAt, vtype, h, h', hn, FVal.ctype, e] at hl
      · simp [trCondJmp, vtypeAt, vtype, h, h', hn, FVal.ctype, e, hk, FVal.regOf, FVal.constOf] at hl
        subst hl
        refine ⟨_, rfl, ?_⟩
        have := jumpSlot_imm (W := W) (d := r) (v := y) (σ := σ) h1 hk hw
        rwa [hok _ _ _ _ h' e] at this
    · simp [trCondJmp, vtypeAt, vtype, h, h', hn, hk, FVal.regOf] at hl
      subst hl
      exact ⟨_, rfl, jumpSlot_reg h1 hk hw⟩
    · simp [trCondJmp, vtypeAt, vtype, h, h', hn, pt_stack _ hs'] at hl
  · rcases val_cases' hy with ⟨k', c0', ct', b', h', rfl⟩ | ⟨r', h', rfl⟩ | ⟨r', s', hs', h', rfl⟩
    · simp [trCondJmp, vtypeAt, vtype, h, h', hn, pt_stack _ hs] at hl
    · simp [trCondJmp, vtypeAt, vtype, h, h', hn, pt_stack _ hs] at hl
    · simp [trCondJmp, vtypeAt, vtype, h, h', hn, pt_stack _ hs', pt_stack _ hs] at hl

theorem trunc32_inj {x y : BitVec 64} (hx : (x.setWidth 32).signExtend 64 = x)
    (hy : (y.setWidth 32).signExtend 64 = y) (h : x.setWidth 32 = y.setWidth 32) : x = y := by
  rw [← hx, ← hy, h]

/-- Conditional jumps. -/
theorem lower_condjmp {W : World} {i : FInsn} {σ : St} {ps : List Pre} {c : Cond} {b : Bool}
    (h1 : Flat.condOp i.op = some c) (hn : i.valueNum = 2)
    (hv0 : ∀ k v ct b, i.v0 = .const k v ct b → ct ≠ .w64 → (v.setWidth 32).signExtend 64 = v)
    (hv1 : ∀ k v ct b, i.v1 = .const k v ct b → ct ≠ .w64 → (v.setWidth 32).signExtend 64 = v)
    (hcc : ∀ k v ct b k' v' ct' b', i.v0 = .const k v ct b → i.v1 = .const k' v' ct' b' →
      i.aluOp = .w32 → ct ≠ .w64 ∧ ct' ≠ .w64)
    (hs : Flat.taken i σ = some b) (hl : lower i = .ok ps) :
    (ps = [] ∧ b = false) ∨ ∃ p, ps = [p] ∧ JumpSlot W p σ b := by
  obtain ⟨k8, hk, hcj, hba⟩ := condOp_jmpCode h1
  have hno : normInsn i = (do let r ← normCondJmp i; Out.ok r.toList) := by
    cases ho : i.op <;> simp [ho, Flat.condOp] at h1 <;> simp [normInsn, ho, Op.binAlu, Op.condJmp]
  simp only [Flat.taken, h1, Option.bind_eq_bind, Option.bind_some, Option.bind_eq_some_iff, Option.some.injEq] at hs
  obtain ⟨w, hw, x, hx, y, hy, rfl⟩ := hs
  rw [lower, hno] at hl
  rcases val_cases' hx with ⟨k, c0, ct, b, h, rfl⟩ | ⟨r, h, rfl⟩ | ⟨r, s, hs, h, rfl⟩
  · rcases val_cases' hy with ⟨k', c0', ct', b', h', rfl⟩ | ⟨r', h', rfl⟩ | ⟨r', s', hs', h', rfl⟩
    · by_cases hne : i.op = .jne
      · rw [hne] at h1; simp [Flat.condOp] at h1; subst h1
        by_cases he : x = y
        · simp [normCondJmp, vtypeAt, vtype, h, h', hn, hne, FVal.constOf, he] at hl
          left
          refine ⟨hl, ?_⟩
          cases w <;> simp [Bpf.cond, condW, he]
        · simp [normCondJmp, vtypeAt, vtype, h, h', hn, hne, FVal.constOf, he, mapCat_cons, trInsn] at hl
          right
          refine ⟨_, hl.symm, ?_⟩
          have : cond w .ne x y = true := by
            cases w
            · have hal : i.aluOp = .w32 := by
                cases ha : i.aluOp <;> simp [ha, Flat.width] at hw <;> rfl
              obtain ⟨e1, e2⟩ := hcc _ _ _ _ _ _ _ _ h h' hal
              simp only [Bpf.cond, condW, Bool.false_eq_true, if_false, bne_iff_ne]
              exact fun e => he (trunc32_inj (hv0 _ _ _ _ h e1) (hv1 _ _ _ _ h' e2) e)
            · simp [Bpf.cond, condW, he]
          rw [this]
          exact jumpSlot_ja
      · simp [normCondJmp, vtypeAt, vtype, h, h', hn, hne] at hl
    all_goals
      obtain ⟨o', c', hsw, hc'⟩ := condOp_swap h1
      first | simp [normCondJmp, vtypeAt, vtype, h, h', hn, hsw, pt_stack _ hs'] at hl
            | simp [normCondJmp, vtypeAt, vtype, h, h', hn, hsw] at hl
      right
      have := trCondJmp_sound (W := W) (σ := σ) (c := c') (j := { i with op := o', v0 := i.v1, v1 := i.v0 }) hc' hw hn hy hx hv0
        (mapCat_ok_one (by simpa [h, h', hn] using hl))
      rwa [cond_swap h1 hsw hc'] at this
  · simp [normCondJmp, vtypeAt, vtype, h, hn] at hl
    have : normCondJmp i = .ok (some i) := by
      rcases val_cases' hy with ⟨k', c0', ct', b', h', rfl⟩ | ⟨r', h', rfl⟩ | ⟨r', s', hs', h', rfl⟩ <;>
        simp [normCondJmp, vtypeAt, vtype, h, h', hn]
    right
    rcases val_cases' hy with ⟨k', c0', ct', b', h', rfl⟩ | ⟨r', h', rfl⟩ | ⟨r', s', hs', h', rfl⟩ <;>
      simp [h', vtype] at hl <;>
      exact trCondJmp_sound h1 hw hn hx hy hv1 (mapCat_ok_one hl)
  · right
    rcases val_cases' hy with ⟨k', c0', ct', b', h', rfl⟩ | ⟨r', h', rfl⟩ | ⟨r', s', hs', h', rfl⟩ <;>
      simp [normCondJmp, vtypeAt, vtype, h, hn, h', pt_stack _ hs] at hl <;>
      exact trCondJmp_sound h1 hw hn hx hy hv1 (mapCat_ok_one hl)

end Verif.Norm
