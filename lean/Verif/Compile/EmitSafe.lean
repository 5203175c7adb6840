import Verif.Compile.Sturdy
import Verif.Emit.Norm
import Verif.Emit.Builtin
/-!
# Normalization, translation and emission do not crash
-/
set_option linter.unusedSimpArgs false
namespace Verif.Compile
open Verif Verif.Norm Verif.Emit
open Verif.Loc (hasResult)

/-- A position in a register. -/
def inRegister (r : Reg) : VrPos := ⟨true, r, 0⟩

/-- A register or a constant of 32 bits. -/
def RegVal (v : FVal) : Prop := (∃ r, v = .pos (inRegister r)) ∨ ∃ k c b, v = .const k c .w32 b

/-- What is relied on in a flattened instruction. -/
structure Firm (i : FInsn) : Prop where
  op : okOp i.op = true ∧ i.op ≠ .phi
  two : i.op.binAlu = true ∨ i.op.condJmp = true → i.valueNum = 2 ∧ RegVal i.v0 ∧ RegVal i.v1
  one : i.op = .neg ∨ i.op = .htobe ∨ i.op = .htole ∨ i.op = .assign ∨ i.op = .storeraw → i.valueNum = 1 ∧ RegVal i.v0
  store : i.op = .store → (∃ p : VrPos, i.v0 = .pos p ∧ p.allocated = true) ∧ RegVal i.v1
  load : i.op = .load → i.valueNum = 1 ∧ i.vrType ≠ .unknown ∧ ∃ p : VrPos, i.v0 = .pos p ∧ p.allocated = true
  ret : i.op = .ret → i.valueNum = 0 ∨ i.valueNum = 1 ∧ RegVal i.v0
  typ : i.op = .loadraw ∨ i.op = .storeraw → i.vrType ≠ .unknown
  ld : i.op = .loadraw → (∃ r, i.addr = .pos (inRegister r)) ∨ ∃ c t b, i.addr = .const .plain c t b
  st : i.op = .storeraw → ∃ r, i.addr = .pos (inRegister r)
  imm : i.op = .loadimm → i.immKind ≤ 6
  res : hasResult i.op = true → i.op ≠ .alloc → ∃ r, i.dst = inRegister r
  bare : BareI i

/-- All instructions can be translated. -/
def Translates (is : List FInsn) : Prop := ∀ j ∈ is, ∃ ps, trInsn j = .ok ps

/-- An error, or instructions that can be translated. -/
def Goes (o : Out (List FInsn)) : Prop := o = .err ∨ ∃ is, o = .ok is ∧ Translates is

theorem Translates.nil : Translates [] := by intro j hj; cases hj

theorem Translates.cons {i : FInsn} {is : List FInsn} (h : ∃ ps, trInsn i = .ok ps) (hs : Translates is) : Translates (i :: is) := by
  intro j hj
  rcases List.mem_cons.1 hj with rfl | hj
  · exact h
  · exact hs j hj

theorem Goes.one {i : FInsn} (h : ∃ ps, trInsn i = .ok ps) : Goes (.ok [i]) := .inr ⟨_, rfl, .cons h .nil⟩

@[simp] theorem posType_in (r : Reg) : posType (inRegister r) = .reg := by simp [posType, inRegister]

theorem vrSize_ok {t : VrTy} (h : t ≠ .unknown) : ∃ z, vrSize t = .ok z := by
  cases t
  · exact absurd rfl h
  all_goals exact ⟨_, rfl⟩

theorem aluCode_ok {o : Op} (h : o.binAlu = true) : ∃ c, aluCode o = .ok c := by
  cases o <;> first | exact ⟨_, rfl⟩ | cases h

theorem jmpCode_ok {o : Op} (h : o.condJmp = true) : ∃ c, jmpCode o = .ok c := by
  cases o <;> first | exact ⟨_, rfl⟩ | cases h

theorem trInsn_alu {i : FInsn} (h : i.op.binAlu = true) : trInsn i = trAlu i := by
  cases ho : i.op <;> rw [ho] at h <;> first | (simp [trInsn, ho, Op.binAlu]; done) | cases h

theorem trInsn_cond {i : FInsn} (h : i.op.condJmp = true) : trInsn i = trCondJmp i := by
  cases ho : i.op <;> rw [ho] at h <;> first | (simp [trInsn, ho, Op.binAlu, Op.condJmp]; done) | cases h

theorem trAlu_ok {i : FInsn} (ho : i.op.binAlu = true) (hn : i.valueNum = 2) {r : Reg} (hd : i.dst = inRegister r) (h0 : i.v0 = .pos (inRegister r)) (h1 : RegVal i.v1) :
    ∃ ps, trInsn i = .ok ps := by
  rw [trInsn_alu ho]
  obtain ⟨c, hc⟩ := aluCode_ok ho
  rcases h1 with ⟨s, h1⟩ | ⟨k, x, b, h1⟩
  · simp [trAlu, vtypeAt, vtype, hn, hd, h0, h1, assert, FVal.regOf, hc]
  · simp only [trAlu, vtypeAt, vtype, hn, hd, h0, h1, assert, FVal.regOf, FVal.constOf]
    by_cases e : i.op = .add ∧ x = 0
    · simp [e]
    · have e' : ¬ (i.op = .add ∧ x = 0#64) := e
      simp only [hc, if_neg e', if_pos, decide_true, Out.ok_bind, posType_in]
      simp [e', hc]

theorem trAssign_ok {i : FInsn} (ho : i.op = .assign) (hn : i.valueNum = 1) {r : Reg} (hd : i.dst = inRegister r) (h0 : RegVal i.v0) : ∃ ps, trInsn i = .ok ps := by
  rcases h0 with ⟨s, h0⟩ | ⟨k, x, b, h0⟩
  · by_cases e : (inRegister r).reg = (inRegister s).reg
    · simp [trInsn, ho, trAssign, vtypeAt, vtype, hn, hd, h0, FVal.regOf, e]
    · simp [trInsn, ho, trAssign, vtypeAt, vtype, hn, hd, h0, FVal.regOf, e]
  · simp [trInsn, ho, trAssign, vtypeAt, vtype, hn, hd, h0]

theorem normLoadConst_ok {v : FVal} {r : Reg} (hv : RegVal v) (hc : ∃ k c b, v = .const k c .w32 b) : ∃ ps, trInsn (normLoadConst v (inRegister r)) = .ok ps := by
  obtain ⟨k, c, b, rfl⟩ := hc
  refine trAssign_ok (r := r) ?_ ?_ ?_ (.inr ⟨k, c, b, ?_⟩) <;> simp [normLoadConst, FVal.ctype, Norm.mkAssign]

/-- What happens to an operation whose operands are in order. -/
theorem alu_tail {i : FInsn} {pre : List FInsn} (ho : i.op.binAlu = true) (hn : i.valueNum = 2) {r : Reg} (hd : i.dst = inRegister r) (h0 : RegVal i.v0) (h1 : RegVal i.v1) (hp : Translates pre)
    {t0 t1 : VType} (e0 : vtype i.v0 = .ok t0) (e1 : vtype i.v1 = .ok t1) :
    ∃ is, (do
      assert (t0 = VType.const → i.v0.ctype = AluTy.w32)
      assert (t1 = VType.const → i.v1.ctype = AluTy.w32)
      if t0 = VType.stack ∧ (t1 = VType.const ∨ t1 = VType.reg) then do
        let n ← normAssign { Norm.mkAssign i.dst i.v0 with vrType := .t64 }
        Out.ok (pre ++ n.toList ++ [{ i with v0 := .pos i.dst }])
      else if t0 = VType.reg ∧ (t1 = VType.const ∨ t1 = VType.reg) then
        if i.v0.regOf ≠ i.dst.reg then
          Out.ok (pre ++ [Norm.mkAssign i.dst i.v0, { i with v0 := .pos i.dst }])
        else Out.ok (pre ++ [i])
      else if t0 = VType.const ∧ (t1 = VType.const ∨ t1 = VType.reg) then
        Out.ok (pre ++ [normLoadConst i.v0 i.dst, { i with v0 := .pos i.dst }])
      else Out.crit) = .ok is ∧ Translates is := by
  have app : ∀ l, Translates l → Translates (pre ++ l) := fun l hl j hj => (List.mem_append.1 hj).elim (hp j) (hl j)
  have last : ∃ ps, trInsn { i with v0 := .pos i.dst } = .ok ps := trAlu_ok (i := { i with v0 := .pos i.dst }) ho hn hd (by rw [← hd]) h1
  have t1k : (t1 = .const ∨ t1 = .reg) ∧ (t1 = .const → i.v1.ctype = .w32) := by
    rcases h1 with ⟨s, h1⟩ | ⟨k, x, b, h1⟩
    · rw [h1, vtype, posType_in] at e1
      cases e1
      exact ⟨.inr rfl, fun e => by cases e⟩
    · rw [h1] at e1 ⊢
      cases e1
      exact ⟨.inl rfl, fun _ => rfl⟩
  have a1 : assert (decide (t1 = .const → i.v1.ctype = .w32)) = .ok () := by unfold assert; rw [if_pos (by simp only [decide_eq_true_eq]; exact t1k.2)]
  rcases h0 with ⟨s, h0⟩ | ⟨k, x, b, h0⟩
  · have : t0 = .reg := by
      rw [h0, vtype, posType_in] at e0
      cases e0; rfl
    subst this
    rw [show assert (decide (VType.reg = .const → i.v0.ctype = .w32)) = .ok () from rfl, Out.ok_bind, a1, Out.ok_bind, if_neg (by simp), if_pos ⟨rfl, t1k.1⟩]
    split
    · exact ⟨_, rfl, app _ (.cons (trAssign_ok (r := r) rfl rfl hd (.inl ⟨s, h0⟩)) (.cons last .nil))⟩
    · rename_i e
      refine ⟨_, rfl, app _ (.cons (trAlu_ok ho hn hd ?_ h1) .nil)⟩
      rw [h0, hd] at e
      have e : s = r := by simpa [FVal.regOf, inRegister] using e
      rw [h0, e]
  · have : t0 = .const := by
      rw [h0] at e0
      cases e0; rfl
    subst this
    have a0 : assert (decide (VType.const = .const → i.v0.ctype = .w32)) = .ok () := by rw [h0]; rfl
    rw [a0, Out.ok_bind, a1, Out.ok_bind, if_neg (by simp), if_neg (by simp), if_pos ⟨rfl, t1k.1⟩]
    refine ⟨_, rfl, app _ (.cons ?_ (.cons last .nil))⟩
    rw [hd]
    exact normLoadConst_ok (.inr ⟨k, x, b, h0⟩) ⟨k, x, b, h0⟩

theorem regVal_type {v : FVal} (h : RegVal v) : ∃ t, vtype v = .ok t ∧ (t = .reg ∨ t = .const) := by
  rcases h with ⟨s, rfl⟩ | ⟨k, x, b, rfl⟩
  · exact ⟨.reg, by rw [vtype, posType_in], .inl rfl⟩
  · exact ⟨.const, rfl, .inr rfl⟩

theorem normAlu_goes {i : FInsn} (ho : i.op.binAlu = true) (hn : i.valueNum = 2) {r : Reg} (hd : i.dst = inRegister r) (h0 : RegVal i.v0) (h1 : RegVal i.v1) : Goes (normAlu i) := by
  obtain ⟨t0, e0, k0⟩ := regVal_type h0
  obtain ⟨t1, e1, k1⟩ := regVal_type h1
  unfold normAlu
  rw [vtypeAt, if_pos (by omega), e0, Out.ok_bind, vtypeAt, if_pos (by omega), e1, Out.ok_bind]
  rw [show assert (decide (posType i.dst = .reg)) = .ok () by rw [hd, posType_in]; rfl, Out.ok_bind]
  split
  · rename_i hx
    have hv1 : i.v1 = .pos (inRegister r) := by
      rcases h1 with ⟨s, h1⟩ | ⟨k, x, b, h1⟩
      · have := hx.2
        rw [h1, hd] at this
        rw [h1, show r = s from this]
      · rw [h1] at e1
        cases e1
        cases hx.1
    split
    · rw [Out.ok_bind]
      exact .inr (alu_tail (i := { i with v0 := i.v1, v1 := i.v0 }) ho hn hd h1 h0 .nil e1 e0)
    · split
      · rename_i hs
        rw [Out.ok_bind]
        refine .inr (alu_tail (i := { i with op := .add, v0 := i.v1, v1 := i.v0 }) rfl hn hd h1 h0 (.cons ?_ .nil) e1 e0)
        simp [trInsn, trNeg, vtypeAt, vtype, hv1, hd, assert, FVal.regOf]
      · exact .inl rfl
  · rw [Out.ok_bind]
    exact .inr (alu_tail ho hn hd h0 h1 .nil e0 e1)

theorem swapCond_some {o : Op} (h : o.condJmp = true) : ∃ p, swapCond o = some p ∧ p.condJmp = true := by
  cases o <;> first | exact ⟨_, rfl, rfl⟩ | cases h

theorem trCond_ok {i : FInsn} (ho : i.op.condJmp = true) (hn : i.valueNum = 2) {r : Reg} (h0 : i.v0 = .pos (inRegister r)) (h1 : RegVal i.v1) : ∃ ps, trInsn i = .ok ps := by
  rw [trInsn_cond ho]
  obtain ⟨c, hc⟩ := jmpCode_ok ho
  rcases h1 with ⟨s, h1⟩ | ⟨k, x, b, h1⟩
  · simp [trCondJmp, vtypeAt, vtype, hn, h0, h1, assert, hc]
  · simp [trCondJmp, vtypeAt, vtype, hn, h0, h1, assert, hc, FVal.ctype]

theorem normCond_goes {i : FInsn} (ho : i.op.condJmp = true) (hn : i.valueNum = 2) (h0 : RegVal i.v0) (h1 : RegVal i.v1) :
    Goes (do let r ← normCondJmp i; Out.ok r.toList) := by
  unfold normCondJmp
  rcases h0 with ⟨s, h0⟩ | ⟨k, x, b, h0⟩
  · obtain ⟨t1, e1, k1⟩ := regVal_type h1
    rw [vtypeAt, if_pos (by omega), h0, vtype, posType_in, Out.ok_bind, vtypeAt, if_pos (by omega), e1, Out.ok_bind, if_neg (by simp), Out.ok_bind]
    exact .one (trCond_ok ho hn h0 h1)
  · rcases h1 with ⟨s, h1⟩ | ⟨k', x', b', h1⟩
    · rw [vtypeAt, if_pos (by omega), h0, vtype, Out.ok_bind, vtypeAt, if_pos (by omega), h1, vtype, posType_in, Out.ok_bind, if_pos rfl, if_neg (by simp)]
      obtain ⟨p, hp, hpc⟩ := swapCond_some ho
      rw [hp]
      exact .one (trCond_ok (i := { i with op := p, v0 := i.v1, v1 := i.v0 }) hpc hn h1 (.inr ⟨k, x, b, h0⟩) |> fun h => by rw [h0, h1] at h; exact h)
    · rw [vtypeAt, if_pos (by omega), h0, vtype, Out.ok_bind, vtypeAt, if_pos (by omega), h1, vtype, Out.ok_bind, if_pos rfl, if_pos rfl]
      split
      · split
        · exact .one ⟨_, rfl⟩
        · exact .inr ⟨_, rfl, .nil⟩
      · exact .inl rfl

/-- A store to the stack. -/
theorem store_stack {i : FInsn} (ho : i.op = .storeraw) (hn : i.valueNum = 1) (h0 : RegVal i.v0) (ha : ∃ r, i.addr = .pos (inRegister r)) (ht : i.vrType ≠ .unknown) : ∃ ps, trInsn i = .ok ps := by
  obtain ⟨r, ha⟩ := ha
  obtain ⟨z, hz⟩ := vrSize_ok ht
  rcases h0 with ⟨s, h0⟩ | ⟨k, x, b, h0⟩
  · simp [trInsn, ho, trStoreraw, vtypeAt, vtype, hn, h0, ha, assert, storeReg, hz]
  · simp [trInsn, ho, trStoreraw, vtypeAt, vtype, hn, h0, ha, assert, storeConst, hz]

/-- A copy to a place. -/
theorem normAssign_goes {i : FInsn} (ho : i.op = .assign) (hn : i.valueNum = 1) (hd : i.dst.allocated = true) (h0 : RegVal i.v0) : ∃ r, normAssign i = .ok r ∧ Translates r.toList := by
  obtain ⟨t0, e0, k0⟩ := regVal_type h0
  unfold normAssign
  rw [vtypeAt, if_pos (by omega), e0, Out.ok_bind]
  dsimp only
  by_cases hs : i.dst.spilled = 0
  · have hr : i.dst = inRegister i.dst.reg := by
      obtain ⟨op, v0, v1, vn, vt, ad, ao, al, b1, b2, aux, ik, im, ⟨a, r, s⟩⟩ := i
      simp only at hs hd
      subst hs; subst hd
      rfl
    have hp : posType i.dst = .reg := by rw [hr, posType_in]
    rw [if_neg (by rw [hp]; simp)]
    split
    · exact ⟨_, rfl, .nil⟩
    · have h1 : t0 ≠ .stack := by rcases k0 with e | e <;> rw [e] <;> simp
      have h2 : ¬ (t0 = .const ∧ i.v0.ctype = .w64) := by
        rintro ⟨e, h⟩
        rcases h0 with ⟨s, h0⟩ | ⟨k, x, b, h0⟩ <;> rw [h0] at h <;> cases h
      rw [if_neg h1, if_neg h2]
      exact ⟨_, rfl, .cons (trAssign_ok ho hn hr h0) .nil⟩
  · have hp : posType i.dst = .stack := posType_stack.2 ⟨hd, hs⟩
    rw [if_pos hp]
    have : assert (decide (t0 ≠ .stack)) = .ok () := by rcases k0 with e | e <;> rw [e] <;> rfl
    rw [this, Out.ok_bind]
    exact ⟨_, rfl, .cons (store_stack rfl hn h0 ⟨10, rfl⟩ (by simp)) .nil⟩

theorem normInsn_goes {i : FInsn} (h : Firm i) : Goes (normInsn i) := by
  have resOp : ∀ {o}, i.op = o → hasResult o = true → o ≠ .alloc → ∃ r, i.dst = inRegister r := fun {o} e h1 h2 => h.res (by rw [e]; exact h1) (by rw [e]; exact h2)
  have alu : i.op.binAlu = true → hasResult i.op = true → i.op ≠ .alloc → Goes (normAlu i) := fun hb h1 h2 => by
    obtain ⟨r, hd⟩ := h.res h1 h2
    obtain ⟨k1, k2, k3⟩ := h.two (.inl hb)
    exact normAlu_goes hb k1 hd k2 k3
  have cond : i.op.condJmp = true → Goes (do let r ← normCondJmp i; Out.ok r.toList) := fun hb => by
    obtain ⟨k1, k2, k3⟩ := h.two (.inr hb)
    exact normCond_goes hb k1 k2 k3
  have una : i.op = .neg ∨ i.op = .htobe ∨ i.op = .htole → Goes (normUnary i) := fun ho => by
    obtain ⟨r, hd⟩ := h.res (by rcases ho with e | e | e <;> rw [e] <;> rfl) (by rcases ho with e | e | e <;> rw [e] <;> simp)
    obtain ⟨k1, k2⟩ := h.one (by rcases ho with e | e | e <;> simp [e])
    have fin : ∀ j : FInsn, j.op = i.op → j.valueNum = 1 → j.dst = inRegister r → j.v0 = .pos (inRegister r) → ∃ ps, trInsn j = .ok ps := fun j e1 e2 e3 e4 => by
      rcases ho with e | e | e <;> rw [e] at e1
      · simp [trInsn, e1, trNeg, vtypeAt, vtype, e2, e3, e4, assert, FVal.regOf]
      · simp [trInsn, e1, trEnd, vtypeAt, vtype, e2, e3, e4, assert, FVal.regOf]
      · simp [trInsn, e1, trEnd, vtypeAt, vtype, e2, e3, e4, assert, FVal.regOf]
    unfold normUnary
    rcases k2 with ⟨s, h0⟩ | ⟨k, x, b, h0⟩
    · rw [vtypeAt, if_pos (by omega), h0, vtype, posType_in, Out.ok_bind, show assert (decide (posType i.dst = .reg)) = .ok () by rw [hd, posType_in]; rfl, Out.ok_bind, if_pos rfl]
      split
      · refine .inr ⟨_, rfl, .cons (trAssign_ok (r := r) rfl rfl hd (.inl ⟨s, rfl⟩)) (.cons (fin _ rfl k1 hd ?_) .nil)⟩
        dsimp only
        rw [hd]
      · rename_i e
        rw [hd] at e
        have e : s = r := by simpa [FVal.regOf, inRegister] using e
        exact .one (fin i rfl k1 hd (by rw [h0, e]))
    · rw [vtypeAt, if_pos (by omega), h0, vtype, Out.ok_bind, show assert (decide (posType i.dst = .reg)) = .ok () by rw [hd, posType_in]; rfl, Out.ok_bind, if_neg (by simp), if_pos rfl]
      exact .inl rfl
  cases ho : i.op
  case alloc | allocarray =>
    simp only [normInsn, ho]
    exact .one ⟨[], by simp [trInsn, ho]⟩
  case loadimm =>
    simp only [normInsn, ho]
    obtain ⟨r, hd⟩ := resOp ho rfl (by simp)
    exact .one (by simp [trInsn, ho, trLoadimm, hd, assert, h.imm ho])
  case call | ja =>
    simp only [normInsn, ho]
    exact .one (by simp [trInsn, ho])
  case getelemptr | throw | reg | funarg | ecall =>
    have := h.op.1
    rw [ho] at this
    cases this
  case phi => exact absurd ho h.op.2
  case store =>
    obtain ⟨⟨p, hp, ha⟩, h1⟩ := h.store ho
    simp only [normInsn, ho, normStore, hp]
    obtain ⟨r, e, ht⟩ := normAssign_goes (i := { i with op := .assign, dst := p, v0 := i.v1, valueNum := 1 }) rfl rfl ha h1
    rw [e, Out.ok_bind]
    exact .inr ⟨_, rfl, ht⟩
  case load =>
    obtain ⟨r, hd⟩ := resOp ho rfl (by simp)
    obtain ⟨hn, ht, p, hp, ha⟩ := h.load ho
    simp only [normInsn, ho, normLoad]
    by_cases hs : p.spilled = 0
    · have hpr : p = inRegister p.reg := by
        obtain ⟨a, r, s⟩ := p
        simp only at hs ha
        subst hs; subst ha
        rfl
      obtain ⟨r', e, ht⟩ := normAssign_goes (i := { i with op := .assign }) rfl hn (by rw [hd]; rfl) (.inl ⟨p.reg, by rw [hp, ← hpr]⟩)
      rw [e, Out.ok_bind]
      exact .inr ⟨_, rfl, ht⟩
    · have hps : posType p = .stack := posType_stack.2 ⟨ha, hs⟩
      obtain ⟨z, hz⟩ := vrSize_ok ht
      unfold normAssign
      dsimp only
      rw [vtypeAt, if_pos (by simp [hn]), hp, vtype, hps, Out.ok_bind, hd, posType_in, if_neg (by simp), if_neg (by simp), Out.ok_bind]
      refine .one ?_
      simp [trInsn, trLoadraw, assert, loadAddr, hz, stackPtr, stackPtrPos, posType, inRegister]
  case loadraw =>
    simp only [normInsn, ho, normStackoff]
    obtain ⟨r, hd⟩ := resOp ho rfl (by simp)
    obtain ⟨z, hz⟩ := vrSize_ok (h.typ (.inl ho))
    rcases h.ld ho with ⟨s, ha⟩ | ⟨c, t, b, ha⟩
    · rw [ha, vtype, posType_in, Out.ok_bind, if_neg (by simp)]
      exact .one (by simp [trInsn, ho, trLoadraw, hd, assert, loadAddr, hz, ha])
    · rw [ha, vtype, Out.ok_bind, if_neg (by simp)]
      exact .one (by simp [trInsn, ho, trLoadraw, hd, assert, loadAddr, hz, ha])
  case storeraw =>
    simp only [normInsn, ho, normStackoff]
    obtain ⟨s, ha⟩ := h.st ho
    obtain ⟨k1, k2⟩ := h.one (by simp [ho])
    rw [ha, vtype, posType_in, Out.ok_bind, if_neg (by simp)]
    exact .one (store_stack ho k1 k2 ⟨s, ha⟩ (h.typ (.inr ho)))
  case neg | htole | htobe =>
    simp only [normInsn, ho]
    exact una (by simp [ho])
  case assign =>
    obtain ⟨r, hd⟩ := resOp ho rfl (by simp)
    obtain ⟨k1, k2⟩ := h.one (by simp [ho])
    simp only [normInsn, ho]
    obtain ⟨r', e, ht⟩ := normAssign_goes ho k1 (by rw [hd]; rfl) k2
    rw [e, Out.ok_bind]
    exact .inr ⟨_, rfl, ht⟩
  case ret =>
    simp only [normInsn, ho, normRet]
    rcases h.ret ho with hn | ⟨hn, h0⟩
    · rw [if_pos hn]
      exact .one (by simp [trInsn, ho])
    · obtain ⟨t0, e0, k0⟩ := regVal_type h0
      rw [if_neg (by omega), vtypeAt, if_pos (by omega), e0, Out.ok_bind,
        show assert (decide (t0 = .reg ∨ t0 = .const)) = .ok () by rcases k0 with e | e <;> rw [e] <;> rfl, Out.ok_bind]
      exact .inr ⟨_, rfl, .cons (trAssign_ok (r := 0) rfl rfl rfl h0) (.cons (by simp [trInsn, ho]) .nil)⟩
  case add | sub | mul | div | or | and | lsh | arsh | rsh | mod | xor =>
    have e : normInsn i = normAlu i := by simp [normInsn, ho, Op.binAlu]
    rw [e]
    exact alu (by rw [ho]; rfl) (by rw [ho]; rfl) (by rw [ho]; simp)
  case jeq | jgt | jge | jlt | jle | jne | jsge | jsle | jsgt | jslt =>
    have e : normInsn i = (do let r ← normCondJmp i; Out.ok r.toList) := by simp [normInsn, ho, Op.binAlu, Op.condJmp]
    rw [e]
    exact cond (by rw [ho]; rfl)

theorem trInsns_ok {is : List FInsn} (h : Translates is) : ∃ r, trInsns is = .ok r := by
  induction is with
  | nil => exact ⟨_, rfl⟩
  | cons i is ih =>
    obtain ⟨ps, hp⟩ := h i (by simp)
    obtain ⟨r, hr⟩ := ih (fun j hj => h j (List.mem_cons_of_mem _ hj))
    exact ⟨_, by rw [trInsns, hp, Out.ok_bind, hr, Out.ok_bind]⟩

theorem normAll_goes {is : List FInsn} (h : ∀ i ∈ is, Firm i) : Goes (mapCat normInsn is) := by
  induction is with
  | nil => exact .inr ⟨_, rfl, .nil⟩
  | cons i is ih =>
    rw [mapCat]
    rcases normInsn_goes (h i (by simp)) with e | ⟨a, e, ha⟩
    · rw [e]; exact .inl rfl
    · rw [e, Out.ok_bind]
      rcases ih (fun j hj => h j (List.mem_cons_of_mem _ hj)) with e' | ⟨c, e', hc⟩
      · rw [e']; exact .inl rfl
      · rw [e', Out.ok_bind]
        exact .inr ⟨_, rfl, fun j hj => (List.mem_append.1 hj).elim (ha j) (hc j)⟩

theorem lowerBlock_safe {b : FBlock} (h : ∀ i ∈ b.insns, Firm i) : Safe (lowerBlock b) := by
  unfold lowerBlock normBlock
  rcases normAll_goes h with e | ⟨a, e, ha⟩
  · rw [e]; exact .inl rfl
  · rw [e]
    obtain ⟨r, hr⟩ := trInsns_ok ha
    refine .inr ⟨⟨b.id, r⟩, ?_⟩
    simp [hr]

theorem lowerBlocks_safe {bs : List FBlock} (h : ∀ b ∈ bs, ∀ i ∈ b.insns, Firm i) : Safe (lowerBlocks bs) := by
  induction bs with
  | nil => exact .inr ⟨_, rfl⟩
  | cons b bs ih =>
    rw [lowerBlocks]
    refine (lowerBlock_safe (h b (by simp))).bind fun t _ => ?_
    exact (ih (fun c hc => h c (List.mem_cons_of_mem _ hc))).bind fun ts _ => .inr ⟨_, rfl⟩

theorem trInsns_each {is : List FInsn} {r : List TInsn} (h : trInsns is = .ok r) : ∀ t ∈ r, trInsn t.insn = .ok t.tr := by
  induction is generalizing r with
  | nil => cases h; simp
  | cons i is ih =>
    simp only [trInsns] at h
    obtain ⟨p, h1, h⟩ := Out.bind_eq_ok.1 h
    obtain ⟨q, h2, h⟩ := Out.bind_eq_ok.1 h
    cases h
    intro t ht
    rcases List.mem_cons.1 ht with rfl | ht
    · exact h1
    · exact ih h2 t ht

/-- Jumps are translated to one instruction. -/
theorem trInsn_jump {i : FInsn} {ps : List Pre} (hj : isJump i.op = true) (h : trInsn i = .ok ps) : ∃ p, ps = [p] := by
  by_cases ha : i.op = .ja
  · simp [trInsn, ha] at h
    exact ⟨_, h.symm⟩
  · have hc : i.op.condJmp = true := by simpa [isJump, ha] using hj
    rw [trInsn_cond hc, trCondJmp] at h
    obtain ⟨t0, h0, h⟩ := Out.bind_eq_ok.1 h
    obtain ⟨t1, h1, h⟩ := Out.bind_eq_ok.1 h
    obtain ⟨u, h2, h⟩ := Out.bind_eq_ok.1 h
    split at h
    · split at h
      · obtain ⟨c, h3, h⟩ := Out.bind_eq_ok.1 h
        cases h; exact ⟨_, rfl⟩
      · split at h
        · split at h
          · cases h
          · obtain ⟨c, h3, h⟩ := Out.bind_eq_ok.1 h
            cases h; exact ⟨_, rfl⟩
        · cases h
    · cases h

/-- The jumps of an instruction go to one of `ids`. -/
def JumpsIn (ids : List Nat) (i : FInsn) : Prop := isJump i.op = true → jumpTarget i ∈ ids

theorem lowerIs_jumps {ids : List Nat} {is : List FInsn} {r : List TInsn} (h : lowerIs is = .ok r) (hj : ∀ i ∈ is, JumpsIn ids i) :
    ∀ t ∈ r, JumpsIn ids t.insn ∧ (isJump t.insn.op = true → ∃ p, t.tr = [p]) := by
  induction is generalizing r with
  | nil => cases h; simp
  | cons i is ih =>
    simp only [lowerIs] at h
    obtain ⟨p, h1, h⟩ := Out.bind_eq_ok.1 h
    obtain ⟨q, h2, h⟩ := Out.bind_eq_ok.1 h
    cases h
    intro t ht
    rcases List.mem_append.1 ht with ht | ht
    · have hi := hj i (by simp)
      refine ⟨?_, ?_⟩
      · intro hjt
        by_cases hn : isJump i.op = true
        · by_cases ha : i.op = .ja
          · rw [lowerI_ja ha h1] at ht
            cases List.mem_singleton.1 ht
            exact hi hjt
          · have hc : i.op.condJmp = true := by simpa [isJump, ha] using hn
            rcases lowerI_cond hc h1 with e | ⟨t', e, e1, e2⟩
            · rw [e] at ht; cases ht
            · rw [e] at ht
              cases List.mem_singleton.1 ht
              rw [e2]
              have := hi hn
              rwa [jumpTarget, if_neg ha] at this
        · have := lowerI_nojump (by simpa using hn) h1 t ht
          rw [this] at hjt
          cases hjt
      · intro hjt
        simp only [lowerI] at h1
        obtain ⟨is', h3, h4⟩ := Out.bind_eq_ok.1 h1
        exact trInsn_jump hjt (trInsns_each h4 t ht)
    · exact ih h2 (fun j hj' => hj j (List.mem_cons_of_mem _ hj')) t ht

/-- What relocation needs of a placed instruction. -/
def Fixable (ids : List Nat) (i : PInsn) : Prop := isJump i.insn.op = true → (∃ p, i.tr = [p]) ∧ jumpTarget i.insn ∈ ids

theorem relocInsn_ok {all : List PBlock} {i : PInsn} (h : Fixable (all.map (·.id)) i) : ∃ j, relocInsn all i = .ok j := by
  have pat : isJump i.insn.op = true → ∃ j, patch all i (jumpTarget i.insn) = .ok j := fun hj => by
    obtain ⟨⟨⟨n, p⟩, hp⟩, ht⟩ := h hj
    obtain ⟨b, hb, hid⟩ := List.mem_map.1 ht
    have : ∃ n, bbPos all (jumpTarget i.insn) = .ok n := by
      unfold bbPos
      cases hf : all.find? (fun b => b.id == jumpTarget i.insn) with
      | some c => exact ⟨_, rfl⟩
      | none => exact absurd (by simpa using hid) (List.find?_eq_none.1 hf b hb)
    obtain ⟨m, hm⟩ := this
    exact ⟨_, by rw [patch, hp]; dsimp only; rw [hm, Out.ok_bind]⟩
  unfold relocInsn
  by_cases ha : i.insn.op = .ja
  · rw [if_pos ha]
    have := pat (by simp [isJump, ha])
    rwa [jumpTarget, if_pos ha] at this
  · rw [if_neg ha]
    by_cases hc : i.insn.op.condJmp = true
    · rw [if_pos hc]
      have := pat (by simp [isJump, hc])
      rwa [jumpTarget, if_neg ha] at this
    · rw [if_neg hc]; exact ⟨_, rfl⟩

theorem relocInsns_ok {all : List PBlock} {is : List PInsn} (h : ∀ i ∈ is, Fixable (all.map (·.id)) i) : ∃ r, relocInsns all is = .ok r := by
  induction is with
  | nil => exact ⟨_, rfl⟩
  | cons i is ih =>
    obtain ⟨a, ha⟩ := relocInsn_ok (h i (by simp))
    obtain ⟨r, hr⟩ := ih (fun j hj => h j (List.mem_cons_of_mem _ hj))
    exact ⟨_, by rw [relocInsns, ha, Out.ok_bind, hr, Out.ok_bind]⟩

theorem relocBlocks_ok {all bs : List PBlock} (h : ∀ b ∈ bs, ∀ i ∈ b.body, Fixable (all.map (·.id)) i) : ∃ r, relocBlocks all bs = .ok r := by
  induction bs with
  | nil => exact ⟨_, rfl⟩
  | cons i is ih =>
    obtain ⟨a, ha⟩ := relocInsns_ok (h i (by simp))
    obtain ⟨r, hr⟩ := ih (fun j hj => h j (List.mem_cons_of_mem _ hj))
    exact ⟨_, by rw [relocBlocks, ha, Out.ok_bind, hr, Out.ok_bind]⟩

theorem posPres_one {n : Nat} {p : Pre} : (posPres n [p]).1 = [(n, p)] := rfl

theorem posInsns_fix {ids : List Nat} {is : List TInsn} (h : ∀ t ∈ is, JumpsIn ids t.insn ∧ (isJump t.insn.op = true → ∃ p, t.tr = [p])) : ∀ n, ∀ i ∈ (posInsns n is).1, Fixable ids i := by
  induction is with
  | nil => intro n i hi; cases hi
  | cons t is ih =>
    intro n i hi
    simp only [posInsns] at hi
    rcases List.mem_cons.1 hi with rfl | hi
    · intro hj
      obtain ⟨h1, h2⟩ := h t (by simp)
      obtain ⟨p, hp⟩ := h2 hj
      exact ⟨⟨(n, p), by dsimp only; rw [hp]; rfl⟩, h1 hj⟩
    · exact ih (fun j hj => h j (List.mem_cons_of_mem _ hj)) _ i hi

theorem posBlocks_fix {ids : List Nat} {ts : List TBlock} (h : ∀ b ∈ ts, ∀ t ∈ b.body, JumpsIn ids t.insn ∧ (isJump t.insn.op = true → ∃ p, t.tr = [p])) :
    ∀ n, ∀ b ∈ (posBlocks n ts).1, ∀ i ∈ b.body, Fixable ids i := by
  induction ts with
  | nil => intro n b hb; cases hb
  | cons t ts ih =>
    intro n b hb
    simp only [posBlocks] at hb
    rcases List.mem_cons.1 hb with rfl | hb
    · exact posInsns_fix (h t (by simp)) n
    · exact ih (fun j hj => h j (List.mem_cons_of_mem _ hj)) _ b hb

theorem lowerBlocks_jumps {ids : List Nat} {bs : List FBlock} {ts : List TBlock} (h : lowerBlocks bs = .ok ts) (hj : ∀ b ∈ bs, ∀ i ∈ b.insns, JumpsIn ids i) :
    ∀ b ∈ ts, ∀ t ∈ b.body, JumpsIn ids t.insn ∧ (isJump t.insn.op = true → ∃ p, t.tr = [p]) := by
  induction bs generalizing ts with
  | nil => cases h; simp
  | cons b bs ih =>
    simp only [lowerBlocks] at h
    obtain ⟨t, h1, h⟩ := Out.bind_eq_ok.1 h
    obtain ⟨u, h2, h⟩ := Out.bind_eq_ok.1 h
    cases h
    intro c hc
    rcases List.mem_cons.1 hc with rfl | hc
    · exact lowerIs_jumps (lowerBlock_eq h1).2 (hj b (by simp))
    · exact ih h2 (fun j hj' => hj j (List.mem_cons_of_mem _ hj')) c hc

/-- Emission does not crash. -/
theorem emit_safe {bs : List FBlock} (h : ∀ b ∈ bs, ∀ i ∈ b.insns, Firm i) (hj : ∀ b ∈ bs, ∀ i ∈ b.insns, JumpsIn (bs.map (·.id)) i) : Safe (emit bs) := by
  unfold emit
  refine (lowerBlocks_safe h).bind fun ts e => ?_
  refine Safe.bind (by unfold checkTotal; split; exact .inl rfl; exact .inr ⟨_, rfl⟩) fun _ _ => ?_
  obtain ⟨-, -, -, hid⟩ := posBlocks_spec ts 0
  have := posBlocks_fix (lowerBlocks_jumps e hj) 0
  rw [← lowerBlocks_ids e, ← hid] at this
  obtain ⟨rb, hrb⟩ := relocBlocks_ok this
  exact .inr ⟨_, (emitT_char hrb).1⟩

end Verif.Compile
