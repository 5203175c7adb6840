import Verif.Norm.Lemmas
/-! # Lowering of each instruction kind is sound (helper theorems for `Verif/Norm/Props.lean`) -/
set_option linter.unusedSimpArgs false
namespace Verif.Norm
open Verif Verif.Bpf

@[simp] theorem assert_true : assert true = .ok () := rfl
@[simp] theorem assert_false : assert false = .crit := rfl
@[simp] theorem mapCat_nil {α β} (f : α → Out (List β)) : mapCat f [] = .ok [] := rfl
theorem mapCat_cons {α β} (f : α → Out (List β)) (a as) :
    mapCat f (a :: as) = (do let x ← f a; let y ← mapCat f as; Out.ok (x ++ y)) := rfl

@[simp] theorem pt_reg (r : Reg) : posType ⟨true, r, 0⟩ = .reg := rfl
theorem pt_stack (r : Reg) {s : Int} (h : s ≠ 0) : posType ⟨true, r, s⟩ = .stack := by
  simp [posType, h]

/-- The three kinds of operand. -/
theorem val_cases' {σ : St} {v : FVal} {x : BitVec 64} (h : Flat.val σ v = some x) :
    (∃ k c ct b, v = .const k c ct b ∧ x = c) ∨
    (∃ r, v = .pos ⟨true, r, 0⟩ ∧ x = σ.reg r) ∨
    (∃ r s, s ≠ 0 ∧ v = .pos ⟨true, r, s⟩ ∧ x = Bpf.load 8 σ.mem (Flat.slotAddr σ s)) := by
  rcases val_cases h with h | ⟨p, rfl, hp, rfl⟩ | ⟨p, rfl, hp, rfl⟩
  · exact Or.inl h
  · obtain ⟨h1, h2⟩ := posType_reg.1 hp
    rcases p with ⟨a, r, s⟩; simp at h1 h2; subst h1 h2
    exact Or.inr (Or.inl ⟨r, rfl, rfl⟩)
  · obtain ⟨h1, h2⟩ := posType_stack.1 hp
    rcases p with ⟨a, r, s⟩; simp at h1 h2; subst h1
    exact Or.inr (Or.inr ⟨r, s, h2, rfl, rfl⟩)

/-- The two kinds of destination. -/
theorem put_cases {σ σ' : St} {p : VrPos} {x : BitVec 64} (h : Flat.put σ p x = some σ') :
    (∃ r, p = ⟨true, r, 0⟩ ∧ σ' = σ.set r x) ∨
    (∃ r s, s ≠ 0 ∧ p = ⟨true, r, s⟩ ∧
      σ' = { σ with mem := Bpf.store 8 σ.mem (Flat.slotAddr σ s) x }) := by
  cases hp : posType p <;> simp [Flat.put, hp] at h
  · obtain ⟨h1, h2⟩ := posType_reg.1 hp
    rcases p with ⟨a, r, s⟩; simp at h1 h2; subst h1 h2
    exact Or.inl ⟨r, rfl, h.symm⟩
  · obtain ⟨h1, h2⟩ := posType_stack.1 hp
    rcases p with ⟨a, r, s⟩; simp at h1 h2; subst h1
    exact Or.inr ⟨r, s, h2, rfl, h.symm⟩

theorem execP_ldx8 {W : World} {d s : Reg} {off ps σ} :
    execP W (ldxP d s off 24#8 :: ps) σ =
      execP W ps (σ.set d (Bpf.load 8 σ.mem (σ.reg s + off.signExtend 64))) :=
  execP_ldx (t := .t64) rfl rfl

theorem execP_stx8 {W : World} {d s : Reg} {off ps σ} :
    execP W (stxP d s off 24#8 :: ps) σ =
      execP W ps { σ with mem := Bpf.store 8 σ.mem (σ.reg d + off.signExtend 64) (σ.reg s) } :=
  execP_stx (t := .t64) rfl rfl

theorem execP_st8 {W : World} {d : Reg} {v off ps σ} :
    execP W (stP d v off 24#8 :: ps) σ =
      execP W ps { σ with mem := Bpf.store 8 σ.mem (σ.reg d + off.signExtend 64) (v.signExtend 64) } :=
  execP_st (t := .t64) rfl rfl

theorem ten : ((10 : Reg) : Nat) = 10 := rfl

macro "lower_simp" "at" h:ident : tactic => `(tactic|
  simp [lower, normInsn, normAlu, normAssign, normUnary, normRet, normStore, normLoad, normStackoff,
    normGetelemptr, normLoadConst, mkAssign, vtypeAt, vtype, pt_stack, FVal.ctype, FVal.regOf,
    FVal.spillOf, FVal.constOf, mapCat_cons, trInsn, trAssign, trAlu, trNeg, trEnd, trLoadraw,
    trLoadimm, trStoreraw, loadAddr, storeReg, storeConst, vrSize, stackPtr, stackPtrPos, Op.binAlu, Op.condJmp, *] at $h:ident)

/-- `ASSIGN`: all placements. -/
theorem lower_assign {W : World} {i : FInsn} {σ σ' : St} {ps : List Pre}
    (hop : i.op = .assign) (hn : i.valueNum = 1)
    (hv : ValOk i.v0) (hd : PosOk i.dst) (hct : ∀ k c b, i.v0 ≠ .const k c .unknown b)
    (h64 : posType i.dst = .stack → i.v0.ctype ≠ .w64)
    (h32 : i.aluOp = .w32 → i.v0.ctype = .w32 ∧ posType i.dst = .reg)
    (hload : ∀ p, i.v0 = .pos p → posType p = .stack → i.vrType = .t64)
    (hs : Flat.exec W i σ = some σ') (hl : lower i = .ok ps) :
    execP W ps σ = some σ' := by
  rcases i with ⟨op, v0, v1, vn, vt, addr, ao, alu, bb1, bb2, aux, ik, i64, dst⟩
  simp only at *
  subst hop hn
  simp only [Flat.exec, Option.bind_eq_bind, Option.bind_eq_some_iff] at hs
  obtain ⟨x, hx, hp⟩ := hs
  rcases val_cases' hx with ⟨k, c, ct, b, rfl, rfl⟩ | ⟨r, rfl, rfl⟩ | ⟨r, s, hs, rfl, rfl⟩ <;>
    rcases put_cases hp with ⟨d, rfl, rfl⟩ | ⟨d, s', hs', rfl, rfl⟩
  · cases ct
    · simp at hct
    · lower_simp at hl
      subst hl
      simp [ValOk, ConstOk] at hv
      simp [execP_constToReg, Flat.truncBytes, hv]
    · simp [FVal.ctype] at h32
      lower_simp at hl
      subst hl
      rw [execP_ldimm (by omega)]
      simp [h32]
  · cases ct
    · simp at hct
    · simp [FVal.ctype, pt_stack _ hs'] at h32
      lower_simp at hl
      subst hl
      simp [ValOk, ConstOk] at hv
      rw [execP_st8]
      have hd' : -32768 ≤ s' ∧ s' < 32768 := hd
      simp [hv, ofInt_off hd', Flat.slotAddr, h32, ten]
    · simp [FVal.ctype, pt_stack _ hs'] at h64
  · simp [FVal.ctype] at h32
    lower_simp at hl
    by_cases e : d = r
    · subst e
      simp at hl; subst hl
      simp [set_self, h32]
    · simp [e, mapCat_cons, trInsn, trAssign, vtypeAt, vtype, FVal.regOf] at hl
      subst hl
      simp [execP_regToReg, h32]
  · simp [FVal.ctype, pt_stack _ hs'] at h32
    lower_simp at hl
    subst hl
    rw [execP_stx8]
    have hd' : -32768 ≤ s' ∧ s' < 32768 := hd
    simp [ofInt_off hd', Flat.slotAddr, h32, ten]
  · simp [FVal.ctype] at h32
    have ht := hload _ rfl (pt_stack _ hs)
    subst ht
    lower_simp at hl
    subst hl
    rw [execP_ldx8]
    have hd' : -32768 ≤ s ∧ s < 32768 := hv
    simp [ofInt_off hd', Flat.slotAddr, h32, ten]
  · lower_simp at hl

/-- Bit-level facts used for subtraction with exchanged operands. -/
theorem sub_as_add (t : Bool) (x y : BitVec 64) :
    alu t .add (negate true y) x = alu t .sub x y := by
  cases t
  · simp only [alu, aluW, negate, if_true, Bool.false_eq_true, if_false]
    congr 1
    rw [BitVec.setWidth_neg_of_le (by omega)]
    rw [BitVec.add_comm, BitVec.sub_eq_add_neg]
  · simp only [alu, aluW, negate, if_true]
    rw [BitVec.add_comm, BitVec.sub_eq_add_neg]

theorem alu_comm {o : Op} {a : AluOp} (h : o.comm = true) (ha : Flat.aluOp o = some a) (t : Bool)
    (x y : BitVec 64) : alu t a x y = alu t a y x := by
  cases o <;> simp [Op.comm] at h <;> simp [Flat.aluOp] at ha <;> subst ha <;>
    cases t <;> simp only [alu, aluW, if_true, Bool.false_eq_true, if_false] <;>
    first | rw [BitVec.add_comm] | rw [BitVec.mul_comm] | rw [BitVec.or_comm]
          | rw [BitVec.and_comm] | rw [BitVec.xor_comm]

theorem aluCode_ok {o : Op} {a : AluOp} (ha : Flat.aluOp o = some a) : ∃ c, aluCode o = .ok c := by
  cases o <;> simp [Flat.aluOp] at ha <;> exact ⟨_, rfl⟩

theorem aluOp_binAlu {o : Op} {a : AluOp} (ha : Flat.aluOp o = some a) : o.binAlu = true := by
  cases o <;> simp [Flat.aluOp] at ha <;> rfl

/-- The final two-address instruction `d = d op v1`. -/
theorem trAlu_sound {W : World} {j : FInsn} {d : Reg} {a : AluOp} {w : Bool} {σ : St} {y : BitVec 64}
    {ps : List Pre}
    (ha : Flat.aluOp j.op = some a) (hw : Flat.width j.aluOp = some w) (hn : j.valueNum = 2)
    (hd : j.dst = ⟨true, d, 0⟩) (h0 : j.v0 = .pos ⟨true, d, 0⟩)
    (hy : Flat.val σ j.v1 = some y) (hc : ∀ k c ct b, j.v1 = .const k c ct b → ct = .w32)
    (hok : ConstOk j.v1)
    (hz : ¬ (j.op = .add ∧ w = false ∧ ∃ k ct b, j.v1 = .const k 0 ct b))
    (hl : trInsn j = .ok ps) (rest : List Pre) :
    execP W (ps ++ rest) σ = execP W rest (σ.set d (alu w a (σ.reg d) y)) := by
  have htr : trInsn j = trAlu j := by
    cases ho : j.op <;> simp [ho, Flat.aluOp] at ha <;> simp [trInsn, ho, Op.binAlu]
  obtain ⟨c, hcode⟩ := aluCode_ok ha
  have hww : w = decide (j.aluOp = .w64) := by
    cases hao : j.aluOp <;> simp [hao, Flat.width] at hw <;> subst hw <;> simp
  rw [htr] at hl
  rcases val_cases' hy with ⟨k, v, ct, b, h1, rfl⟩ | ⟨r, h1, rfl⟩ | ⟨r, s, hs, h1, rfl⟩
  · have := hc _ _ _ _ h1
    subst this
    rw [h1] at hok
    simp [ConstOk] at hok
    simp [trAlu, vtypeAt, vtype, hn, h0, h1, hd, FVal.regOf, FVal.constOf, hcode] at hl
    by_cases hadd : j.op = .add ∧ y = 0#64
    · simp [hadd] at hl
      subst hl
      obtain ⟨e1, e2⟩ := hadd
      have hw1 : w = true := by
        cases w
        · exact absurd ⟨e1, rfl, k, .w32, b, by rw [h1, e2]; rfl⟩ hz
        · rfl
      rw [e1] at ha
      simp [Flat.aluOp] at ha
      subst ha
      simp [hw1, e2, alu, aluW, set_self]
    · rw [if_neg hadd] at hl
      simp at hl; subst hl
      simp only [List.cons_append, List.nil_append]
      rw [execP_aluImm ha hcode, hok, hww]
  · simp [trAlu, vtypeAt, vtype, hn, h0, h1, hd, FVal.regOf, hcode] at hl
    subst hl
    simp only [List.cons_append, List.nil_append]
    rw [execP_aluReg ha hcode, hww]
  · simp [trAlu, vtypeAt, vtype, hn, h0, h1, hd, FVal.regOf, hcode, pt_stack _ hs] at hl

/-- `add 0` in 32-bit mode, whose zero extension is lost by `translate_alu` (core/ir_cg_norm.c:966):
either the constant is the second operand of an addition, or it is the first operand of an addition
or subtraction whose second operand is the destination register. -/
def DropsAdd0 (i : FInsn) : Prop :=
  i.aluOp = .w32 ∧
  ((i.op = .add ∧ i.v1.constOf = 0 ∧ ∃ k c ct b, i.v1 = .const k c ct b) ∨
   ((i.op = .add ∨ i.op = .sub) ∧ (∃ k ct b, i.v0 = .const k 0 ct b) ∧
     ∃ p, i.v1 = .pos p ∧ posType p = .reg ∧ p.reg = i.dst.reg))

theorem mapCat_ok_cons {α β : Type} {f : α → Out (List β)} {a : α} {as : List α} {ys : List β}
    (h : mapCat f (a :: as) = .ok ys) : ∃ x y, f a = .ok x ∧ mapCat f as = .ok y ∧ ys = x ++ y := by
  rw [mapCat_cons] at h
  obtain ⟨x, h1, h⟩ := Out.bind_eq_ok.1 h
  obtain ⟨y, h2, h⟩ := Out.bind_eq_ok.1 h
  simp at h
  exact ⟨x, y, h1, h2, h.symm⟩

theorem mapCat_ok_one {α β : Type} {f : α → Out (List β)} {a : α} {ys : List β}
    (h : mapCat f [a] = .ok ys) : f a = .ok ys := by
  obtain ⟨x, y, h1, h2, rfl⟩ := mapCat_ok_cons h
  simp at h2; subst h2; simpa using h1

/-- A subtraction of a register from itself into that register, which `normalize_alu`
(core/ir_cg_norm.c:326-340) turns into `d = -d; d = d + d`. -/
def SubSelf (i : FInsn) : Prop :=
  i.op = .sub ∧ ∃ p q, i.v0 = .pos p ∧ i.v1 = .pos q ∧ posType p = .reg ∧ posType q = .reg ∧
    p.reg = i.dst.reg ∧ q.reg = i.dst.reg

theorem lower_alu {W : World} {i : FInsn} {σ σ' : St} {ps : List Pre} {a : AluOp}
    (ha : Flat.aluOp i.op = some a) (hn : i.valueNum = 2)
    (hv0 : ValOk i.v0) (hv1 : ValOk i.v1)
    (hz : ¬ DropsAdd0 i) (hself : ¬ SubSelf i)
    (hs : Flat.exec W i σ = some σ') (hl : lower i = .ok ps) :
    execP W ps σ = some σ' := by
  have hne : normInsn i = normAlu i := by
    cases ho : i.op <;> simp [ho, Flat.aluOp] at ha <;> simp [normInsn, ho, Op.binAlu]
  have hex : Flat.exec W i σ = (do
      let o ← Flat.aluOp i.op
      let w ← Flat.width i.aluOp
      let x ← Flat.val σ i.v0
      let y ← Flat.val σ i.v1
      Flat.put σ i.dst (alu w o x y)) := by
    cases ho : i.op <;> simp [ho, Flat.aluOp] at ha <;> simp [Flat.exec, ho, Flat.aluOp]
  rw [hex, ha] at hs
  simp only [Option.bind_eq_bind, Option.bind_eq_some_iff, Option.some.injEq, exists_eq_left'] at hs
  obtain ⟨w, hw, x, hx, y, hy, hp⟩ := hs
  unfold lower at hl
  rw [hne] at hl
  obtain ⟨is, h1, h2⟩ := Out.bind_eq_ok.1 hl
  rcases i with ⟨op, v0, v1, vn, vt, addr, ao, al, bb1, bb2, aux, ik, i64, dst⟩
  simp only at *
  subst hn
  rcases put_cases hp with ⟨d, rfl, rfl⟩ | ⟨d, s', hs', rfl, rfl⟩
  rotate_left
  · exfalso
    simp [normAlu, pt_stack _ hs'] at h1
    cases hA : vtypeAt _ 1 v0 <;> rw [hA] at h1 <;> simp at h1
    cases hB : vtypeAt _ 2 v1 <;> rw [hB] at h1 <;> simp at h1
  have hwz : w = false → al = .w32 := by
    cases al <;> simp [Flat.width] at hw <;> subst hw <;> simp
  rcases val_cases' hy with ⟨k1, c1, ct1, b1, rfl, rfl⟩ | ⟨r1, rfl, rfl⟩ | ⟨r1, s1, hs1, rfl, rfl⟩
  · -- second operand constant
    have hct1 : ct1 = .w32 := by
      cases ct1 <;> first | rfl | skip
      all_goals
        exfalso
        rcases val_cases' hx with ⟨k0, c0, ct0, b0, rfl, rfl⟩ | ⟨r0, rfl, rfl⟩ | ⟨r0, s0, hs0, rfl, rfl⟩
        · cases ct0 <;> simp [normAlu, vtypeAt, vtype, FVal.ctype] at h1
        · simp [normAlu, vtypeAt, vtype, FVal.ctype] at h1
        · simp [normAlu, vtypeAt, vtype, FVal.ctype, pt_stack _ hs0] at h1
    subst hct1
    have hzz : ¬ (op = .add ∧ w = false ∧ ∃ k ct b, FVal.const k1 y .w32 b1 = .const k 0 ct b) := by
      rintro ⟨e1, e2, k, ct, b, e3⟩
      apply hz
      refine ⟨hwz e2, Or.inl ⟨e1, ?_, ⟨_, _, _, _, rfl⟩⟩⟩
      simp at e3; simp [FVal.constOf, e3.2.1]
    rcases val_cases' hx with ⟨k0, c0, ct0, b0, rfl, rfl⟩ | ⟨r0, rfl, rfl⟩ | ⟨r0, s0, hs0, rfl, rfl⟩
    · cases ct0 <;> simp [normAlu, vtypeAt, vtype, FVal.ctype, normLoadConst] at h1
      subst h1
      obtain ⟨p1, p2, q1, q2, rfl⟩ := mapCat_ok_cons h2
      have q3 := mapCat_ok_one q2
      simp [trInsn, trAssign, mkAssign, vtypeAt, vtype, FVal.constOf] at q1
      subst q1
      simp [ValOk, ConstOk] at hv0
      simp only [List.cons_append, List.nil_append]
      rw [execP_constToReg]
      have := trAlu_sound (W := W) (d := d) (a := a) (w := w) (σ := σ.set d x) (y := y) ha hw rfl rfl rfl rfl
        (by intro k c ct b e; simp at e; exact e.2.2.1.symm) (by exact hv1) hzz q3 []
      simp at this
      simpa [hv0] using this
    · by_cases e : r0 = d
      · subst e
        simp [normAlu, vtypeAt, vtype, FVal.ctype, FVal.regOf] at h1
        subst h1
        have := trAlu_sound (W := W) (d := r0) (a := a) (w := w) (σ := σ) (y := y) ha hw rfl rfl rfl rfl
          (by intro k c ct b e; simp at e; exact e.2.2.1.symm) (by exact hv1) hzz (mapCat_ok_one h2) []
        simpa using this
      · simp [normAlu, vtypeAt, vtype, FVal.ctype, FVal.regOf, e] at h1
        subst h1
        obtain ⟨p1, p2, q1, q2, rfl⟩ := mapCat_ok_cons h2
        have q3 := mapCat_ok_one q2
        have e' : d ≠ r0 := fun h => e h.symm
        simp [trInsn, trAssign, mkAssign, vtypeAt, vtype, FVal.regOf, e'] at q1
        subst q1
        simp only [List.cons_append, List.nil_append]
        rw [execP_regToReg]
        have := trAlu_sound (W := W) (d := d) (a := a) (w := w) (σ := σ.set d (σ.reg r0)) (y := y) ha hw rfl rfl rfl rfl
          (by intro k c ct b e; simp at e; exact e.2.2.1.symm) (by exact hv1) hzz q3 []
        simpa using this
    · simp [normAlu, normAssign, mkAssign, vtypeAt, vtype, FVal.ctype, pt_stack _ hs0, FVal.spillOf] at h1
      subst h1
      obtain ⟨p1, p2, q1, q2, rfl⟩ := mapCat_ok_cons h2
      have q3 := mapCat_ok_one q2
      simp [trInsn, trLoadraw, loadAddr, vrSize, stackPtr, stackPtrPos] at q1
      subst q1
      simp only [List.cons_append, List.nil_append]
      rw [execP_ldx8]
      have hd' : -32768 ≤ s0 ∧ s0 < 32768 := hv0
      rw [ofInt_off hd', ten]
      have := trAlu_sound (W := W) (d := d) (a := a) (w := w)
        (σ := σ.set d (Bpf.load 8 σ.mem (σ.reg 10 + BitVec.ofInt 64 s0))) (y := y) ha hw rfl rfl rfl rfl
        (by intro k c ct b e; simp at e; exact e.2.2.1.symm) (by exact hv1) hzz q3 []
      simpa [Flat.slotAddr] using this
  · by_cases e1 : d = r1
    · subst e1
      by_cases hcomm : op.comm = true
      · -- operands exchanged
        rcases val_cases' hx with ⟨k0, c0, ct0, b0, rfl, rfl⟩ | ⟨r0, rfl, rfl⟩ | ⟨r0, s0, hs0, rfl, rfl⟩
        · cases ct0 <;> simp [normAlu, vtypeAt, vtype, FVal.ctype, FVal.regOf, hcomm] at h1
          subst h1
          have := trAlu_sound (W := W) (d := d) (a := a) (w := w) (σ := σ) (y := x) ha hw rfl rfl rfl rfl
            (by intro k c ct b e; simp at e; exact e.2.2.1.symm) (by exact hv0) (by
              rintro ⟨e1, e2, k, ct, b, e3⟩
              apply hz
              simp at e3
              exact ⟨hwz e2, Or.inr ⟨Or.inl e1, ⟨k0, .w32, b0, by simp [e3.2.1]⟩, _, rfl, rfl, rfl⟩⟩)
            (mapCat_ok_one h2) []
          simpa [alu_comm hcomm ha w x] using this
        · simp [normAlu, vtypeAt, vtype, FVal.ctype, FVal.regOf, hcomm] at h1
          subst h1
          have := trAlu_sound (W := W) (d := d) (a := a) (w := w) (σ := σ) (y := σ.reg r0) ha hw rfl rfl rfl rfl
            (by intro k c ct b e; simp at e) (by trivial) (by rintro ⟨e1, e2, k, ct, b, e3⟩; simp at e3)
            (mapCat_ok_one h2) []
          simpa [alu_comm hcomm ha w (σ.reg r0)] using this
        · simp [normAlu, vtypeAt, vtype, FVal.ctype, FVal.regOf, hcomm, pt_stack _ hs0] at h1
      · by_cases hsub : op = .sub
        · subst hsub
          simp [Flat.aluOp] at ha
          subst ha
          rcases val_cases' hx with ⟨k0, c0, ct0, b0, rfl, rfl⟩ | ⟨r0, rfl, rfl⟩ | ⟨r0, s0, hs0, rfl, rfl⟩
          · cases ct0 <;> simp [normAlu, vtypeAt, vtype, FVal.ctype, FVal.regOf, hcomm] at h1
            subst h1
            obtain ⟨p1, p2, q1, q2, rfl⟩ := mapCat_ok_cons h2
            simp [trInsn, trNeg, vtypeAt, vtype, FVal.regOf] at q1
            subst q1
            simp only [List.cons_append, List.nil_append]
            rw [execP_neg]
            have := trAlu_sound (W := W) (d := d) (a := .add) (w := w) (σ := σ.set d (negate true (σ.reg d))) (y := x)
              rfl hw rfl rfl rfl rfl
              (by intro k c ct b e; simp at e; exact e.2.2.1.symm) (by exact hv0) (by
                rintro ⟨e1, e2, k, ct, b, e3⟩
                apply hz
                simp at e3
                exact ⟨hwz e2, Or.inr ⟨Or.inr rfl, ⟨k0, .w32, b0, by simp [e3.2.1]⟩, _, rfl, rfl, rfl⟩⟩)
              (mapCat_ok_one q2) []
            simp [sub_as_add] at this
            simpa using this
          · -- both operands may be the same register
            simp [normAlu, vtypeAt, vtype, FVal.ctype, FVal.regOf, hcomm] at h1
            subst h1
            obtain ⟨p1, p2, q1, q2, rfl⟩ := mapCat_ok_cons h2
            simp [trInsn, trNeg, vtypeAt, vtype, FVal.regOf] at q1
            subst q1
            simp only [List.cons_append, List.nil_append]
            rw [execP_neg]
            have := trAlu_sound (W := W) (d := d) (a := .add) (w := w) (σ := σ.set d (negate true (σ.reg d)))
              (y := (σ.set d (negate true (σ.reg d))).reg r0)
              rfl hw rfl rfl rfl rfl
              (by intro k c ct b e; simp at e) (by trivial) (by rintro ⟨e1, e2, k, ct, b, e3⟩; simp at e3)
              (mapCat_ok_one q2) []
            by_cases e0 : (r0 : Nat) = d
            · exact absurd ⟨rfl, _, _, rfl, rfl, rfl, rfl, Fin.ext e0, rfl⟩ hself
            · rw [set_reg_ne _ _ e0] at this
              simp [sub_as_add] at this
              simpa using this
          · simp [normAlu, vtypeAt, vtype, FVal.ctype, FVal.regOf, hcomm, pt_stack _ hs0] at h1
        · exfalso
          rcases val_cases' hx with ⟨k0, c0, ct0, b0, rfl, rfl⟩ | ⟨r0, rfl, rfl⟩ | ⟨r0, s0, hs0, rfl, rfl⟩
          · simp [normAlu, vtypeAt, vtype, FVal.ctype, FVal.regOf, hcomm, hsub] at h1
          · simp [normAlu, vtypeAt, vtype, FVal.ctype, FVal.regOf, hcomm, hsub] at h1
          · simp [normAlu, vtypeAt, vtype, FVal.ctype, FVal.regOf, hcomm, hsub] at h1
    · have e1' : (r1 : Nat) ≠ d := fun h => e1 (Fin.ext h.symm)
      rcases val_cases' hx with ⟨k0, c0, ct0, b0, rfl, rfl⟩ | ⟨r0, rfl, rfl⟩ | ⟨r0, s0, hs0, rfl, rfl⟩
      · cases ct0 <;> simp [normAlu, vtypeAt, vtype, FVal.ctype, normLoadConst, FVal.regOf, e1] at h1
        subst h1
        obtain ⟨p1, p2, q1, q2, rfl⟩ := mapCat_ok_cons h2
        have q3 := mapCat_ok_one q2
        simp [trInsn, trAssign, mkAssign, vtypeAt, vtype, FVal.constOf] at q1
        subst q1
        simp [ValOk, ConstOk] at hv0
        simp only [List.cons_append, List.nil_append]
        rw [execP_constToReg]
        have := trAlu_sound (W := W) (d := d) (a := a) (w := w) (σ := σ.set d x) (y := (σ.set d x).reg r1) ha hw rfl rfl rfl rfl
          (by intro k c ct b e; simp at e) (by trivial) (by rintro ⟨e1, e2, k, ct, b, e3⟩; simp at e3) q3 []
        rw [set_reg_ne _ _ e1'] at this
        simp at this
        simpa [hv0] using this
      · by_cases e : r0 = d
        · subst e
          simp [normAlu, vtypeAt, vtype, FVal.ctype, FVal.regOf, e1] at h1
          subst h1
          have := trAlu_sound (W := W) (d := r0) (a := a) (w := w) (σ := σ) (y := σ.reg r1) ha hw rfl rfl rfl rfl
            (by intro k c ct b e; simp at e) (by trivial) (by rintro ⟨e1, e2, k, ct, b, e3⟩; simp at e3) (mapCat_ok_one h2) []
          simpa using this
        · simp [normAlu, vtypeAt, vtype, FVal.ctype, FVal.regOf, e, e1] at h1
          subst h1
          obtain ⟨p1, p2, q1, q2, rfl⟩ := mapCat_ok_cons h2
          have q3 := mapCat_ok_one q2
          have e' : d ≠ r0 := fun h => e h.symm
          simp [trInsn, trAssign, mkAssign, vtypeAt, vtype, FVal.regOf, e'] at q1
          subst q1
          simp only [List.cons_append, List.nil_append]
          rw [execP_regToReg]
          have := trAlu_sound (W := W) (d := d) (a := a) (w := w) (σ := σ.set d (σ.reg r0))
            (y := (σ.set d (σ.reg r0)).reg r1) ha hw rfl rfl rfl rfl
            (by intro k c ct b e; simp at e) (by trivial) (by rintro ⟨e1, e2, k, ct, b, e3⟩; simp at e3) q3 []
          rw [set_reg_ne _ _ e1'] at this
          simpa using this
      · simp [normAlu, normAssign, mkAssign, vtypeAt, vtype, FVal.ctype, pt_stack _ hs0, FVal.spillOf, FVal.regOf, e1] at h1
        subst h1
        obtain ⟨p1, p2, q1, q2, rfl⟩ := mapCat_ok_cons h2
        have q3 := mapCat_ok_one q2
        simp [trInsn, trLoadraw, loadAddr, vrSize, stackPtr, stackPtrPos] at q1
        subst q1
        simp only [List.cons_append, List.nil_append]
        rw [execP_ldx8]
        have hd' : -32768 ≤ s0 ∧ s0 < 32768 := hv0
        rw [ofInt_off hd', ten]
        have := trAlu_sound (W := W) (d := d) (a := a) (w := w)
          (σ := σ.set d (Bpf.load 8 σ.mem (σ.reg 10 + BitVec.ofInt 64 s0)))
          (y := (σ.set d (Bpf.load 8 σ.mem (σ.reg 10 + BitVec.ofInt 64 s0))).reg r1) ha hw rfl rfl rfl rfl
          (by intro k c ct b e; simp at e) (by trivial) (by rintro ⟨e1, e2, k, ct, b, e3⟩; simp at e3) q3 []
        rw [set_reg_ne _ _ e1'] at this
        simpa [Flat.slotAddr] using this
  · exfalso
    rcases val_cases' hx with ⟨k0, c0, ct0, b0, rfl, rfl⟩ | ⟨r0, rfl, rfl⟩ | ⟨r0, s0, hs0, rfl, rfl⟩
    · cases ct0 <;> simp [normAlu, vtypeAt, vtype, FVal.ctype, FVal.regOf, pt_stack _ hs1] at h1
    · simp [normAlu, vtypeAt, vtype, FVal.ctype, FVal.regOf, pt_stack _ hs1] at h1
    · simp [normAlu, vtypeAt, vtype, FVal.ctype, FVal.regOf, pt_stack _ hs1, pt_stack _ hs0] at h1

end Verif.Norm
