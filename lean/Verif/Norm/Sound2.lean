import Verif.Norm.Sound
/-! # Lowering of the remaining instruction kinds is sound (helper theorems) -/
set_option linter.unusedSimpArgs false
namespace Verif.Norm
open Verif Verif.Bpf

/-! ## Memory lemmas -/

/-- A short load is the low part of a longer one. -/
theorem load_trunc (n k : Nat) (m : Mem) (a : BitVec 64) :
    Bpf.load n m a = ((Bpf.load (n + k) m a).setWidth (8 * n)).setWidth 64 := by
  induction n generalizing a with
  | zero => simp [Bpf.load, BitVec.eq_nil (BitVec.setWidth (8 * 0) _)]
  | succ n ih =>
    rw [show n + 1 + k = (n + k) + 1 by omega]
    simp only [Bpf.load]
    rw [ih (a + 1)]
    apply BitVec.eq_of_getLsbD_eq
    intro i hi
    simp only [BitVec.getLsbD_or, BitVec.getLsbD_setWidth, BitVec.getLsbD_shiftLeft]
    by_cases h : i < 8
    · simp [h, hi]; omega
    · simp [h, hi]
      have h8 : (m a).getLsbD i = false := BitVec.getLsbD_of_ge _ _ (by omega)
      simp [h8]
      by_cases h2 : i < 8 * (n + 1)
      · have : i - 8 < 8 * n := by omega
        simp [h2, this]; omega
      · have : ¬ i - 8 < 8 * n := by omega
        simp [h2, this]

/-- A store only looks at the low bytes of the value. -/
theorem store_congr (n : Nat) (m : Mem) (a v v' : BitVec 64)
    (h : ∀ i, i < 8 * n → v.getLsbD i = v'.getLsbD i) : Bpf.store n m a v = Bpf.store n m a v' := by
  induction n generalizing m a v v' with
  | zero => rfl
  | succ n ih =>
    simp only [Bpf.store]
    have : v.setWidth 8 = v'.setWidth 8 := by
      apply BitVec.eq_of_getLsbD_eq
      intro i hi
      simp [BitVec.getLsbD_setWidth, hi, h i (by omega)]
    rw [this]
    apply ih
    intro i hi
    simp [BitVec.getLsbD_ushiftRight, h (8 + i) (by omega)]

theorem store_trunc32 {n : Nat} (hn : n ≤ 4) (m : Mem) (a v : BitVec 64) :
    Bpf.store n m a ((v.setWidth 32).signExtend 64) = Bpf.store n m a v := by
  apply store_congr
  intro i hi
  have : i < 32 := by omega
  rw [BitVec.getLsbD_signExtend]
  simp [this]; omega

/-! ## Unary operations -/

theorem lower_neg {W : World} {i : FInsn} {σ σ' : St} {ps : List Pre}
    (hop : i.op = .neg) (hn : i.valueNum = 1)
    (hs : Flat.exec W i σ = some σ') (hl : lower i = .ok ps) :
    execP W ps σ = some σ' := by
  rcases i with ⟨op, v0, v1, vn, vt, addr, ao, al, bb1, bb2, aux, ik, i64, dst⟩
  simp only at *
  subst hop hn
  simp only [Flat.exec, Option.bind_eq_bind, Option.bind_eq_some_iff] at hs
  obtain ⟨x, hx, w, hw, hp⟩ := hs
  have hww : w = decide (al = .w64) := by
    cases al <;> simp [Flat.width] at hw <;> subst hw <;> simp
  rcases val_cases' hx with ⟨k, c, ct, b, rfl, rfl⟩ | ⟨r, rfl, rfl⟩ | ⟨r, s, hs, rfl, rfl⟩ <;>
    rcases put_cases hp with ⟨d, rfl, rfl⟩ | ⟨d, s', hs', rfl, rfl⟩
  · lower_simp at hl
  · lower_simp at hl
  · by_cases e : r = d
    · subst e
      lower_simp at hl
      subst hl
      simp [execP_neg, hww]
    · have e' : d ≠ r := fun h => e h.symm
      lower_simp at hl
      subst hl
      simp [execP_regToReg, execP_neg, hww]
  · lower_simp at hl
  · lower_simp at hl
  · lower_simp at hl

theorem lower_end_aux {W : World} {i : FInsn} {σ σ' : St} {ps : List Pre} {x y : BitVec 64} (be : Bool)
    (hop : i.op = if be then .htobe else .htole) (hn : i.valueNum = 1)
    (hx : Flat.val σ i.v0 = some x) (hy : swapVal be i.aux x = some y) (hp : Flat.put σ i.dst y = some σ')
    (hl : lower i = .ok ps) : execP W ps σ = some σ' := by
  have hl2 : (do let is ← normUnary i; mapCat trInsn is) = Out.ok ps := by
    cases be <;> simp at hop <;> simpa [lower, normInsn, hop] using hl
  have htr : ∀ j : FInsn, j.op = i.op → trInsn j = trEnd j := by
    intro j hj
    cases be <;> simp at hop <;> simp [trInsn, hj, hop]
  have hbe : (if i.op = Op.htobe then (0x08 : BitVec 8) else 0x00) = if be then (0x08 : BitVec 8) else 0x00 := by
    cases be <;> simp at hop <;> simp [hop]
  rcases i with ⟨op, v0, v1, vn, vt, addr, ao, al, bb1, bb2, aux, ik, i64, dst⟩
  simp only at *
  subst hn
  clear hl hop
  rcases put_cases hp with ⟨d, rfl, rfl⟩ | ⟨d, s', hs', rfl, rfl⟩
  · rcases val_cases' hx with ⟨k, c, ct, b, rfl, rfl⟩ | ⟨r, rfl, rfl⟩ | ⟨r, s, hs, rfl, rfl⟩
    · simp [normUnary, vtypeAt, vtype] at hl2
    · by_cases e : r = d
      · subst e
        simp [normUnary, vtypeAt, vtype, FVal.regOf] at hl2
        have := mapCat_ok_one hl2
        rw [htr _ rfl] at this
        simp only [trEnd, hbe] at this
        simp [vtypeAt, vtype, FVal.regOf] at this
        subst this
        simpa using execP_end (W := W) (ps := []) (σ := σ) (d := r) hy
      · have e' : d ≠ r := fun h => e h.symm
        simp [normUnary, vtypeAt, vtype, FVal.regOf, e] at hl2
        obtain ⟨p1, p2, q1, q2, rfl⟩ := mapCat_ok_cons hl2
        have := mapCat_ok_one q2
        rw [htr _ rfl] at this
        simp only [trEnd, hbe] at this
        simp [vtypeAt, vtype, FVal.regOf] at this
        subst this
        simp [trInsn, trAssign, mkAssign, vtypeAt, vtype, FVal.regOf, e'] at q1
        subst q1
        simp only [List.cons_append, List.nil_append]
        rw [execP_regToReg]
        simpa using execP_end (W := W) (ps := []) (σ := σ.set d (σ.reg r)) (d := d) (v := y) (by simpa using hy)
    · simp [normUnary, vtypeAt, vtype, pt_stack _ hs, mapCat_cons, trInsn, trAssign, mkAssign] at hl2
  · rcases val_cases' hx with ⟨k, c, ct, b, rfl, rfl⟩ | ⟨r, rfl, rfl⟩ | ⟨r, s, hs, rfl, rfl⟩ <;>
      simp [normUnary, vtypeAt, vtype, pt_stack _ hs'] at hl2

theorem lower_end {W : World} {i : FInsn} {σ σ' : St} {ps : List Pre}
    (hop : i.op = .htobe ∨ i.op = .htole) (hn : i.valueNum = 1)
    (hs : Flat.exec W i σ = some σ') (hl : lower i = .ok ps) :
    execP W ps σ = some σ' := by
  rcases hop with h | h
  · simp only [Flat.exec, h, Option.bind_eq_bind, Option.bind_eq_some_iff] at hs
    obtain ⟨x, hx, y, hy, hp⟩ := hs
    exact lower_end_aux true h hn hx hy hp hl
  · simp only [Flat.exec, h, Option.bind_eq_bind, Option.bind_eq_some_iff] at hs
    obtain ⟨x, hx, y, hy, hp⟩ := hs
    exact lower_end_aux false h hn hx hy hp hl

/-! ## Memory -/

/-- `STORE` to an allocated variable. -/
theorem lower_store {W : World} {i : FInsn} {σ σ' : St} {ps : List Pre}
    (hop : i.op = .store) (hal : i.aluOp ≠ .w32)
    (hv : ValOk i.v1) (hd : ∀ p, i.v0 = .pos p → PosOk p) (hct : ∀ k c b, i.v1 ≠ .const k c .unknown b)
    (h64 : ∀ p, i.v0 = .pos p → posType p = .stack → i.v1.ctype ≠ .w64)
    (hload : ∀ p, i.v1 = .pos p → posType p = .stack → i.vrType = .t64)
    (hs : Flat.exec W i σ = some σ') (hl : lower i = .ok ps) :
    execP W ps σ = some σ' := by
  rcases i with ⟨op, v0, v1, vn, vt, addr, ao, al, bb1, bb2, aux, ik, i64, dst⟩
  simp only at *
  subst hop
  cases v0 with
  | const k c ct b => simp [Flat.exec] at hs
  | other => simp [Flat.exec] at hs
  | pos p =>
    refine lower_assign (i := ⟨.assign, v1, v1, 1, vt, addr, ao, al, bb1, bb2, aux, ik, i64, p⟩)
      rfl rfl hv (hd p rfl) hct (h64 p rfl) (fun h => absurd h hal) hload ?_ ?_
    · simpa [Flat.exec, hal] using hs
    · simpa [lower, normInsn, normStore] using hl

/-- `LOAD` of an allocated variable. -/
theorem lower_load {W : World} {i : FInsn} {σ σ' : St} {ps : List Pre}
    (hop : i.op = .load) (hn : i.valueNum = 1)
    (hpos : ∃ p, i.v0 = .pos p ∧ PosOk p) (hd : PosOk i.dst)
    (hfit : ∀ p n, i.v0 = .pos p → posType p = .reg → Flat.bytes i.vrType = some n →
      Flat.truncBytes n (σ.reg p.reg) = σ.reg p.reg)
    (hs : Flat.exec W i σ = some σ') (hl : lower i = .ok ps) :
    execP W ps σ = some σ' := by
  rcases i with ⟨op, v0, v1, vn, vt, addr, ao, al, bb1, bb2, aux, ik, i64, dst⟩
  simp only at *
  subst hop hn
  obtain ⟨p0, rfl, hv⟩ := hpos
  simp only [Flat.exec, Option.bind_eq_bind, Option.bind_eq_some_iff] at hs
  obtain ⟨x, hx, n, hb, hp⟩ := hs
  rcases val_cases' hx with ⟨k, c, ct, b, h, rfl⟩ | ⟨r, h, rfl⟩ | ⟨r, s, hs, h, rfl⟩
  · simp at h
  · simp at h; subst h
    rw [hfit _ n rfl rfl hb] at hp
    rcases put_cases hp with ⟨d, rfl, rfl⟩ | ⟨d, s', hs', rfl, rfl⟩
    · lower_simp at hl
      by_cases e : d = r
      · subst e
        simp at hl; subst hl
        simp [set_self]
      · simp [e, mapCat_cons, trInsn, trAssign, vtypeAt, vtype, FVal.regOf] at hl
        subst hl
        simp [execP_regToReg]
    · lower_simp at hl
      subst hl
      rw [execP_stx8]
      have hd' : -32768 ≤ s' ∧ s' < 32768 := hd
      simp [ofInt_off hd', Flat.slotAddr, ten]
  · simp at h; subst h
    rcases put_cases hp with ⟨d, rfl, rfl⟩ | ⟨d, s', hs', rfl, rfl⟩
    · simp [lower, normInsn, normLoad, normAssign, vtypeAt, vtype, pt_stack _ hs, FVal.spillOf, stackPtr] at hl
      have := mapCat_ok_one hl
      simp [trInsn, trLoadraw, loadAddr, stackPtrPos] at this
      obtain ⟨q, hq, h2⟩ := Out.bind_eq_ok.1 this
      obtain ⟨sz, hsz, h3⟩ := Out.bind_eq_ok.1 hq
      simp at h3; subst h3
      simp at h2; subst h2
      rw [execP_ldx hsz hb]
      have hd' : -32768 ≤ s ∧ s < 32768 := hv
      have hn8 : n ≤ 8 := by cases vt <;> simp [Flat.bytes] at hb <;> omega
      have ht := load_trunc n (8 - n) σ.mem (Flat.slotAddr σ s)
      rw [show n + (8 - n) = 8 by omega] at ht
      simp [ofInt_off hd', ten, Flat.truncBytes, ← ht]
      rfl
    · lower_simp at hl

theorem off_add {a : BitVec 16} {s : Int} (h : -32768 ≤ a.toInt + s ∧ a.toInt + s < 32768) :
    (a + BitVec.ofInt 16 s).signExtend 64 = BitVec.ofInt 64 s + a.signExtend 64 := by
  apply BitVec.eq_of_toInt_eq
  have h1 := BitVec.toInt_lt (x := a)
  have h2 := BitVec.le_toInt (x := a)
  rw [BitVec.toInt_signExtend, BitVec.toInt_add, BitVec.toInt_add, BitVec.toInt_ofInt, BitVec.toInt_ofInt,
    BitVec.toInt_signExtend]
  simp [Int.bmod] at *
  omega

/-- `LOADRAW`. -/
theorem lower_loadraw {W : World} {i : FInsn} {σ σ' : St} {ps : List Pre}
    (hop : i.op = .loadraw) (hca : ∀ k c ct b, i.addr ≠ .const k c ct b)
    (hoff : ∀ p, i.addr = .pos p → posType p = .stack →
      -32768 ≤ i.addrOff.toInt + p.spilled ∧ i.addrOff.toInt + p.spilled < 32768)
    (hs : Flat.exec W i σ = some σ') (hl : lower i = .ok ps) :
    execP W ps σ = some σ' := by
  rcases i with ⟨op, v0, v1, vn, vt, addr, ao, al, bb1, bb2, aux, ik, i64, dst⟩
  simp only at *
  subst hop
  simp only [Flat.exec, Option.bind_eq_bind, Option.bind_eq_some_iff] at hs
  obtain ⟨a, ha, n, hb, hp⟩ := hs
  cases addr with
  | const k c ct b => exact absurd rfl (hca _ _ _ _)
  | other => simp [Flat.addrVal] at ha
  | pos p =>
    cases hpt : posType p <;> simp [Flat.addrVal, hpt] at ha <;> subst ha
    · simp [lower, normInsn, normStackoff, vtype, hpt] at hl
      have := mapCat_ok_one hl
      rcases put_cases hp with ⟨d, rfl, rfl⟩ | ⟨d, s', hs', rfl, rfl⟩
      · simp [trInsn, trLoadraw, loadAddr, hpt] at this
        obtain ⟨q, hq, h2⟩ := Out.bind_eq_ok.1 this
        obtain ⟨sz, hsz, h3⟩ := Out.bind_eq_ok.1 hq
        simp at h3; subst h3
        simp at h2; subst h2
        simp [execP_ldx hsz hb]
      · simp [trInsn, trLoadraw, pt_stack _ hs'] at this
    · have ho := hoff p rfl hpt
      simp [lower, normInsn, normStackoff, vtype, hpt, FVal.spillOf, stackPtr] at hl
      have := mapCat_ok_one hl
      rcases put_cases hp with ⟨d, rfl, rfl⟩ | ⟨d, s', hs', rfl, rfl⟩
      · simp [trInsn, trLoadraw, loadAddr, stackPtrPos] at this
        obtain ⟨q, hq, h2⟩ := Out.bind_eq_ok.1 this
        obtain ⟨sz, hsz, h3⟩ := Out.bind_eq_ok.1 hq
        simp at h3; subst h3
        simp at h2; subst h2
        rw [execP_ldx hsz hb, off_add ho]
        simp [Flat.slotAddr, BitVec.add_assoc, ten]
      · simp [trInsn, trLoadraw, pt_stack _ hs'] at this

/-- `STORERAW`. -/
theorem lower_storeraw {W : World} {i : FInsn} {σ σ' : St} {ps : List Pre}
    (hop : i.op = .storeraw) (hn : i.valueNum = 1)
    (hoff : ∀ p, i.addr = .pos p → posType p = .stack →
      -32768 ≤ i.addrOff.toInt + p.spilled ∧ i.addrOff.toInt + p.spilled < 32768)
    (hc : ∀ k c ct b, i.v0 = .const k c ct b → i.vrType = .t64 → (c.setWidth 32).signExtend 64 = c)
    (hs : Flat.exec W i σ = some σ') (hl : lower i = .ok ps) :
    execP W ps σ = some σ' := by
  rcases i with ⟨op, v0, v1, vn, vt, addr, ao, al, bb1, bb2, aux, ik, i64, dst⟩
  simp only at *
  subst hop hn
  simp only [Flat.exec, Option.bind_eq_bind, Option.bind_eq_some_iff] at hs
  obtain ⟨a, ha, n, hb, x, hx, hp⟩ := hs
  simp at hp
  subst hp
  have hconst : ∀ k c ct b, v0 = .const k c ct b → ∀ m a,
      Bpf.store n m a ((c.setWidth 32).signExtend 64) = Bpf.store n m a c := by
    intro k c ct b he m a
    by_cases h4 : n ≤ 4
    · exact store_trunc32 h4 m a c
    · have : vt = .t64 := by cases vt <;> simp [Flat.bytes] at hb <;> first | rfl | omega
      rw [hc k c ct b he this]
  cases addr with
  | const k c ct b => simp [lower, normInsn, normStackoff, vtype, mapCat_cons, trInsn, trStoreraw, vtypeAt] at hl
                      rcases val_cases' hx with ⟨k, c, ct, b, rfl, rfl⟩ | ⟨r, rfl, rfl⟩ | ⟨r, s, hs, rfl, rfl⟩ <;>
                        simp [vtype] at hl
  | other => simp [Flat.addrVal] at ha
  | pos p =>
    cases hpt : posType p <;> simp [Flat.addrVal, hpt] at ha <;> subst ha
    · simp [lower, normInsn, normStackoff, vtype, hpt] at hl
      have := mapCat_ok_one hl
      rcases val_cases' hx with ⟨k, c, ct, b, rfl, rfl⟩ | ⟨r, rfl, rfl⟩ | ⟨r, s, hs, rfl, rfl⟩
      · simp [trInsn, trStoreraw, vtypeAt, vtype, storeConst, hpt, FVal.constOf] at this
        obtain ⟨q, hq, h2⟩ := Out.bind_eq_ok.1 this
        obtain ⟨sz, hsz, h3⟩ := Out.bind_eq_ok.1 hq
        simp at h3; subst h3
        simp at h2; subst h2
        simp [execP_st hsz hb, hconst _ _ _ _ rfl]
      · simp [trInsn, trStoreraw, vtypeAt, vtype, storeReg, hpt, FVal.regOf] at this
        obtain ⟨q, hq, h2⟩ := Out.bind_eq_ok.1 this
        obtain ⟨sz, hsz, h3⟩ := Out.bind_eq_ok.1 hq
        simp at h3; subst h3
        simp at h2; subst h2
        simp [execP_stx hsz hb]
      · simp [trInsn, trStoreraw, vtypeAt, vtype, hpt, pt_stack _ hs] at this
    · have ho := hoff p rfl hpt
      simp [lower, normInsn, normStackoff, vtype, hpt, FVal.spillOf, stackPtr] at hl
      have := mapCat_ok_one hl
      rcases val_cases' hx with ⟨k, c, ct, b, rfl, rfl⟩ | ⟨r, rfl, rfl⟩ | ⟨r, s, hs, rfl, rfl⟩
      · simp [trInsn, trStoreraw, vtypeAt, vtype, storeConst, stackPtrPos, FVal.constOf] at this
        obtain ⟨q, hq, h2⟩ := Out.bind_eq_ok.1 this
        obtain ⟨sz, hsz, h3⟩ := Out.bind_eq_ok.1 hq
        simp at h3; subst h3
        simp at h2; subst h2
        rw [execP_st hsz hb, off_add ho]
        simp [hconst _ _ _ _ rfl, Flat.slotAddr, BitVec.add_assoc, ten]
      · simp [trInsn, trStoreraw, vtypeAt, vtype, storeReg, stackPtrPos, FVal.regOf] at this
        obtain ⟨q, hq, h2⟩ := Out.bind_eq_ok.1 this
        obtain ⟨sz, hsz, h3⟩ := Out.bind_eq_ok.1 hq
        simp at h3; subst h3
        simp at h2; subst h2
        rw [execP_stx hsz hb, off_add ho]
        simp [Flat.slotAddr, BitVec.add_assoc, ten]
      · simp [trInsn, trStoreraw, vtypeAt, vtype, stackPtrPos, pt_stack _ hs] at this

/-- `LOADIMM_EXTRA`. -/
theorem lower_loadimm {W : World} {i : FInsn} {σ σ' : St} {ps : List Pre}
    (hop : i.op = .loadimm)
    (hs : Flat.exec W i σ = some σ') (hl : lower i = .ok ps) :
    execP W ps σ = some σ' := by
  rcases i with ⟨op, v0, v1, vn, vt, addr, ao, al, bb1, bb2, aux, ik, i64, dst⟩
  simp only at *
  subst hop
  simp only [Flat.exec] at hs
  simp only [lower, normInsn, Out.ok_bind] at hl
  have := mapCat_ok_one hl
  rcases put_cases hs with ⟨d, rfl, rfl⟩ | ⟨d, s', hs', rfl, rfl⟩
  · simp [trInsn, trLoadimm] at this
    by_cases hk : ik ≤ 6
    · simp [hk] at this; subst this
      simp [execP_ldimm hk]
    · simp [hk] at this
  · simp [trInsn, trLoadimm, pt_stack _ hs'] at this

/-- `CALL`. -/
theorem lower_call {W : World} {i : FInsn} {σ σ' : St} {ps : List Pre}
    (hop : i.op = .call)
    (hs : Flat.exec W i σ = some σ') (hl : lower i = .ok ps) :
    execP W ps σ = some σ' := by
  rcases i with ⟨op, v0, v1, vn, vt, addr, ao, al, bb1, bb2, aux, ik, i64, dst⟩
  simp only at *
  subst hop
  simp only [Flat.exec] at hs
  simp [lower, normInsn, mapCat_cons, trInsn] at hl
  subst hl
  simpa [execP_call] using hs

end Verif.Norm
