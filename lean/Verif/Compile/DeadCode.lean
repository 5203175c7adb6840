import Verif.Compile.Legal
/-!
# Every emitted slot can be reached (helper lemmas)
-/
set_option linter.unusedSimpArgs false
namespace Verif.Compile
open Verif Verif.Norm Verif.Emit Verif.Bpf

/-! ## Machine instructions that run on -/

/-- Neither an unconditional jump nor an exit. -/
def Runs (p : Pre) : Prop := p.opcode ≠ 0x05 ∧ p.opcode ≠ 0x95

theorem decode_ja {s : Slot} {off : BitVec 16} (h : decode s = some (.ja off)) : s.code = 0x05 := by
  apply BitVec.eq_of_toNat_eq
  have hlt := s.code.isLt
  unfold decode at h
  dsimp only at h
  split at h
  all_goals repeat' (first | (cases h; done) | split at h)
  all_goals first | (simp at h; done) | (simp at *; omega)

theorem decode_exit {s : Slot} (h : decode s = some .exit) : s.code = 0x95 := by
  apply BitVec.eq_of_toNat_eq
  have hlt := s.code.isLt
  unfold decode at h
  dsimp only at h
  split at h
  all_goals repeat' (first | (cases h; done) | split at h)
  all_goals first | (simp at h; done) | (simp at *; omega)

theorem flowI_next {q : Int} {x : Option Instr} (h1 : ∀ off, x ≠ some (.ja off)) (h2 : x ≠ some .exit) : q + 1 ∈ flowI q x := by
  cases x with
  | none => exact List.mem_singleton.2 rfl
  | some i =>
    cases i with
    | ja off => exact absurd rfl (h1 off)
    | exit => exact absurd rfl h2
    | jcc w c d s off => exact List.mem_cons_of_mem _ (List.mem_singleton.2 rfl)
    | _ => exact List.mem_singleton.2 rfl

theorem flowI_leap {q : Int} {i : Instr} {off : BitVec 16} (h : jumpOffset i = some off) : q + 1 + off.toInt ∈ flowI q (some i) := by
  cases i with
  | ja o => cases h; exact List.mem_singleton.2 rfl
  | jcc w c d s o => cases h; exact List.mem_cons_self
  | _ => cases h

theorem flow_eq {code : List Slot} {k : Nat} {s : Slot} (hs : code[k]? = some s) : flow code k = flowI k (decode s) := by
  unfold flow
  rw [hs]

theorem flow_runs {code : List Slot} {k : Nat} {s : Slot} (hs : code[k]? = some s) (h1 : s.code ≠ 0x05) (h2 : s.code ≠ 0x95) : ((k + 1 : Nat) : Int) ∈ flow code k := by
  rw [flow_eq hs]
  exact flowI_next (fun off e => h1 (decode_ja e)) (fun e => h2 (decode_exit e))

theorem tr_runs {i : FInsn} {ps : List Pre} (hj : i.op ≠ .ja) (hr : i.op ≠ .ret) (h : trInsn i = .ok ps) : ∀ p ∈ ps, Runs p := by
  have one : ∀ {q : Pre}, ps = [q] → Runs q → ∀ p ∈ ps, Runs p := by
    intro q e hq p hp
    rw [e] at hp
    rw [List.mem_singleton.1 hp]
    exact hq
  have none : ps = [] → ∀ p ∈ ps, Runs p := by
    intro e p hp
    rw [e] at hp; cases hp
  have alu : i.op.binAlu = true → ∀ p ∈ ps, Runs p := by
    intro ho
    rw [trInsn_alu ho, trAlu] at h
    obtain ⟨t0, h0, h⟩ := Out.bind_eq_ok.1 h
    obtain ⟨t1, h1, h⟩ := Out.bind_eq_ok.1 h
    obtain ⟨u, h2, h⟩ := Out.bind_eq_ok.1 h
    obtain ⟨u', h3, h⟩ := Out.bind_eq_ok.1 h
    obtain ⟨u'', h4, h⟩ := Out.bind_eq_ok.1 h
    split at h
    · obtain ⟨c, h5, h⟩ := Out.bind_eq_ok.1 h
      cases h
      refine one rfl ?_
      generalize i.op = o at ho h5
      generalize i.aluOp = t
      cases o <;> simp [Op.binAlu] at ho <;> simp [aluCode] at h5 <;> subst h5 <;> cases t <;> simp [Runs, aluRegP, aluClass]
    · split at h
      · split at h
        · cases h; exact none rfl
        · obtain ⟨c, h5, h⟩ := Out.bind_eq_ok.1 h
          cases h
          refine one rfl ?_
          generalize i.op = o at ho h5
          generalize i.aluOp = t
          cases o <;> simp [Op.binAlu] at ho <;> simp [aluCode] at h5 <;> subst h5 <;> cases t <;> simp [Runs, aluImmP, aluClass]
      · cases h
  have cond : i.op.condJmp = true → ∀ p ∈ ps, Runs p := by
    intro ho
    rw [trInsn_cond ho, trCondJmp] at h
    obtain ⟨t0, h0, h⟩ := Out.bind_eq_ok.1 h
    obtain ⟨t1, h1, h⟩ := Out.bind_eq_ok.1 h
    obtain ⟨u, h2, h⟩ := Out.bind_eq_ok.1 h
    split at h
    · split at h
      · obtain ⟨c, h5, h⟩ := Out.bind_eq_ok.1 h
        cases h
        refine one rfl ?_
        generalize i.op = o at ho h5
        generalize i.aluOp = t
        cases o <;> simp [Op.condJmp] at ho <;> simp [jmpCode] at h5 <;> subst h5 <;> cases t <;> simp [Runs, condJmpRegP, jmpClass]
      · split at h
        · split at h
          · cases h
          · obtain ⟨c, h5, h⟩ := Out.bind_eq_ok.1 h
            cases h
            refine one rfl ?_
            generalize i.op = o at ho h5
            generalize i.aluOp = t
            cases o <;> simp [Op.condJmp] at ho <;> simp [jmpCode] at h5 <;> subst h5 <;> cases t <;> simp [Runs, condJmpImmP, jmpClass]
        · cases h
    · cases h
  cases ho : i.op
  case add | sub | mul | div | or | and | lsh | arsh | rsh | mod | xor => exact alu (by rw [ho]; rfl)
  case ja => exact absurd ho hj
  case ret => exact absurd ho hr
  case jeq | jgt | jge | jlt | jle | jne | jsge | jsle | jsgt | jslt => exact cond (by rw [ho]; rfl)
  case throw | phi | reg | funarg | ecall => simp [trInsn, ho, Op.binAlu, Op.condJmp] at h
  case store | load | getelemptr => simp [trInsn, ho] at h
  case alloc | allocarray => simp [trInsn, ho] at h; exact none h
  case call =>
    simp [trInsn, ho] at h
    exact one h.symm (by simp [Runs, callP])
  case loadimm =>
    simp only [trInsn, ho, trLoadimm] at h
    obtain ⟨u, h1, h⟩ := Out.bind_eq_ok.1 h
    obtain ⟨u', h2, h⟩ := Out.bind_eq_ok.1 h
    cases h
    exact one rfl (by simp [Runs, ldimmP])
  case loadraw =>
    simp only [trInsn, ho, trLoadraw, loadAddr] at h
    obtain ⟨u, h1, h⟩ := Out.bind_eq_ok.1 h
    obtain ⟨q, h2, h⟩ := Out.bind_eq_ok.1 h
    cases h
    obtain ⟨sz, h3, h2⟩ := Out.bind_eq_ok.1 h2
    refine one rfl ?_
    split at h2
    · obtain ⟨u', h4, h2⟩ := Out.bind_eq_ok.1 h2
      cases h2
      cases ht : i.vrType <;> rw [ht] at h3 <;> simp [vrSize] at h3 <;> subst h3 <;> simp [Runs, ldxP]
    · cases h2
      cases ht : i.vrType <;> rw [ht] at h3 <;> simp [vrSize] at h3 <;> subst h3 <;> simp [Runs]
    · cases h2
  case storeraw =>
    simp only [trInsn, ho, trStoreraw] at h
    obtain ⟨t0, h0, h⟩ := Out.bind_eq_ok.1 h
    split at h
    · obtain ⟨u, h1, h⟩ := Out.bind_eq_ok.1 h
      split at h
      · obtain ⟨q, h2, h⟩ := Out.bind_eq_ok.1 h
        cases h
        obtain ⟨sz, h3, h2⟩ := Out.bind_eq_ok.1 h2
        cases h2
        refine one rfl ?_
        cases ht : i.vrType <;> rw [ht] at h3 <;> simp [vrSize] at h3 <;> subst h3 <;> simp [Runs, stxP]
      · split at h
        · obtain ⟨q, h2, h⟩ := Out.bind_eq_ok.1 h
          cases h
          obtain ⟨sz, h3, h2⟩ := Out.bind_eq_ok.1 h2
          cases h2
          refine one rfl ?_
          cases ht : i.vrType <;> rw [ht] at h3 <;> simp [vrSize] at h3 <;> subst h3 <;> simp [Runs, stP]
        · cases h
    · cases h
  case neg =>
    simp only [trInsn, ho, trNeg] at h
    obtain ⟨t0, h0, h⟩ := Out.bind_eq_ok.1 h
    obtain ⟨u, h1, h⟩ := Out.bind_eq_ok.1 h
    obtain ⟨u', h2, h⟩ := Out.bind_eq_ok.1 h
    cases h
    refine one rfl ?_
    cases i.aluOp <;> simp [Runs, aluNegP, aluClass]
  case htobe | htole =>
    simp only [trInsn, ho, trEnd] at h
    obtain ⟨t0, h0, h⟩ := Out.bind_eq_ok.1 h
    obtain ⟨u, h1, h⟩ := Out.bind_eq_ok.1 h
    obtain ⟨u', h2, h⟩ := Out.bind_eq_ok.1 h
    obtain ⟨u'', h3, h⟩ := Out.bind_eq_ok.1 h
    cases h
    exact one rfl (by simp [Runs, aluEndP])
  case assign =>
    simp only [trInsn, ho, trAssign] at h
    obtain ⟨t0, h0, h⟩ := Out.bind_eq_ok.1 h
    split at h
    · cases h
      refine one rfl ?_
      cases i.aluOp <;> simp [Runs, constToReg]
    · split at h
      · split at h
        · cases h; exact none rfl
        · cases h
          exact one rfl (by simp [Runs, regToReg])
      · cases h

/-! ## Normalization inserts no return -/

def NoRet (is : List FInsn) : Prop := ∀ j ∈ is, j.op ≠ .ret

@[simp] theorem NoRet_nil : NoRet [] := by simp [NoRet]
@[simp] theorem NoRet_cons (i is) : NoRet (i :: is) ↔ i.op ≠ .ret ∧ NoRet is := by simp [NoRet]
@[simp] theorem NoRet_append (a b) : NoRet (a ++ b) ↔ NoRet a ∧ NoRet b := by
  simp only [NoRet, List.mem_append]
  exact ⟨fun h => ⟨fun j hj => h j (Or.inl hj), fun j hj => h j (Or.inr hj)⟩,
    fun h j hj => hj.elim (h.1 j) (h.2 j)⟩

theorem assign_noret {i : FInsn} {r : Option FInsn} (hn : i.op ≠ .ret) (h : normAssign i = .ok r) : NoRet r.toList := by
  simp only [normAssign] at h
  obtain ⟨t0, h0, h⟩ := Out.bind_eq_ok.1 h
  split at h
  · obtain ⟨u, h1, h⟩ := Out.bind_eq_ok.1 h
    simp at h; subst h; simp
  · split at h
    · simp at h; subst h; simp
    · simp at h; subst h
      simp only [Option.toList, NoRet_cons, NoRet_nil, and_true]
      split
      · simp
      · split
        · simp
        · exact hn

theorem loadConst_noret (v d) : (normLoadConst v d).op ≠ .ret := by
  simp only [normLoadConst]
  split <;> simp [mkAssign]

theorem alu_noret {i : FInsn} {r : List FInsn} (hn : i.op ≠ .ret) (h : normAlu i = .ok r) : NoRet r := by
  simp only [normAlu] at h
  obtain ⟨t0, h0, h⟩ := Out.bind_eq_ok.1 h
  obtain ⟨t1, h1, h⟩ := Out.bind_eq_ok.1 h
  obtain ⟨u, h2, h⟩ := Out.bind_eq_ok.1 h
  obtain ⟨⟨pre, j, t0', t1'⟩, h3, h⟩ := Out.bind_eq_ok.1 h
  simp only at h
  have hp : NoRet pre ∧ j.op ≠ .ret := by
    split at h3
    · split at h3
      · simp at h3; obtain ⟨rfl, rfl, -⟩ := h3; exact ⟨by simp, hn⟩
      · split at h3
        · simp at h3; obtain ⟨rfl, rfl, -⟩ := h3; simp
        · simp at h3
    · simp at h3; obtain ⟨rfl, rfl, -⟩ := h3; exact ⟨by simp, hn⟩
  obtain ⟨hp, hj⟩ := hp
  obtain ⟨u1, h4, h⟩ := Out.bind_eq_ok.1 h
  obtain ⟨u2, h5, h⟩ := Out.bind_eq_ok.1 h
  split at h
  · obtain ⟨n, h6, h⟩ := Out.bind_eq_ok.1 h
    simp at h; subst h
    have := assign_noret (by simp [mkAssign]) h6
    simp [hp, this, hj]
  · split at h
    · have ha : (mkAssign j.dst j.v0).op ≠ .ret := by simp [mkAssign]
      split at h <;> simp at h <;> subst h <;> simp [hp, ha, hj]
    · split at h
      · simp at h; subst h; simp [hp, loadConst_noret, hj]
      · simp at h

/-- Both operands are constants. -/
def ConstBoth (i : FInsn) : Prop := (∃ k c ct d, i.v0 = .const k c ct d) ∧ ∃ k c ct d, i.v1 = .const k c ct d

theorem vtypeAt_const {i : FInsn} {n : Nat} {v : FVal} (h : vtypeAt i n v = .ok .const) : ∃ k c ct d, v = .const k c ct d := by
  unfold vtypeAt at h
  split at h
  · cases v with
    | pos p => simp only [vtype, posType, Out.ok.injEq] at h; split at h <;> (try split at h) <;> cases h
    | const k c ct d => exact ⟨k, c, ct, d, rfl⟩
    | other => cases h
  · cases h

/-- A conditional jump on something that is not known normalizes to one conditional jump. -/
theorem norm_test {i : FInsn} {r : List FInsn} (hc : i.op.condJmp = true) (hb : ¬ ConstBoth i) (h : normInsn i = .ok r) :
    ∃ j, r = [j] ∧ j.op.condJmp = true ∧ j.bb2 = i.bb2 := by
  have hno : normInsn i = (do let r ← normCondJmp i; Out.ok r.toList) := by
    cases ho : i.op <;> simp [ho, Op.condJmp] at hc <;> simp [normInsn, ho, Op.binAlu, Op.condJmp]
  rw [hno] at h
  obtain ⟨r', h0, h⟩ := Out.bind_eq_ok.1 h
  simp at h; subst h
  simp only [normCondJmp] at h0
  obtain ⟨t0, h1, h0⟩ := Out.bind_eq_ok.1 h0
  obtain ⟨t1, h2, h0⟩ := Out.bind_eq_ok.1 h0
  split at h0
  · rename_i e0
    split at h0
    · rename_i e1
      rw [e0] at h1
      rw [e1] at h2
      exact absurd ⟨vtypeAt_const h1, vtypeAt_const h2⟩ hb
    · split at h0
      · rename_i o ho
        simp at h0; subst h0
        exact ⟨_, rfl, swapCond_jump ho, rfl⟩
      · simp at h0
  · simp at h0; subst h0
    exact ⟨_, rfl, hc, rfl⟩

theorem norm_noret {i : FInsn} {r : List FInsn} (hn : i.op ≠ .ret) (hc : i.op.condJmp = false) (h : normInsn i = .ok r) : NoRet r := by
  cases ho : i.op
  case ret => exact absurd ho hn
  case alloc | allocarray | loadimm | call | ja => simp [normInsn, ho] at h; subst h; simp [ho]
  case jeq | jgt | jge | jlt | jle | jne | jsge | jsle | jsgt | jslt => rw [ho] at hc; cases hc
  case add | sub | mul | div | or | and | lsh | arsh | rsh | mod | xor =>
    have h0 : normInsn i = normAlu i := by simp [normInsn, ho, Op.binAlu]
    exact alu_noret hn (h0 ▸ h)
  case throw | phi | reg | funarg | ecall => simp [normInsn, ho, Op.binAlu, Op.condJmp] at h
  case getelemptr =>
    simp only [normInsn, ho, normGetelemptr] at h
    obtain ⟨t0, h0, h⟩ := Out.bind_eq_ok.1 h
    obtain ⟨t1, h1, h⟩ := Out.bind_eq_ok.1 h
    obtain ⟨u, h2, h⟩ := Out.bind_eq_ok.1 h
    obtain ⟨u', h3, h⟩ := Out.bind_eq_ok.1 h
    split at h
    · obtain ⟨u'', h3, h⟩ := Out.bind_eq_ok.1 h
      refine alu_noret ?_ h
      split <;> simp
    · split at h
      · split at h <;> simp at h <;> subst h <;> simp [mkAssign]
      · simp at h; subst h; simp
  case store =>
    simp only [normInsn, ho, normStore] at h
    split at h
    · obtain ⟨t0, h0, h⟩ := Out.bind_eq_ok.1 h
      simp at h; subst h
      exact assign_noret (by simp) h0
    · simp at h
  case load =>
    simp only [normInsn, ho, normLoad] at h
    obtain ⟨t0, h0, h⟩ := Out.bind_eq_ok.1 h
    simp at h; subst h
    exact assign_noret (by simp) h0
  case loadraw | storeraw =>
    simp only [normInsn, ho, normStackoff] at h
    obtain ⟨t0, h0, h⟩ := Out.bind_eq_ok.1 h
    split at h <;> simp at h <;> subst h <;> simp [ho]
  case neg | htobe | htole =>
    simp only [normInsn, ho, normUnary] at h
    obtain ⟨t0, h0, h⟩ := Out.bind_eq_ok.1 h
    obtain ⟨u, h1, h⟩ := Out.bind_eq_ok.1 h
    split at h
    · split at h <;> simp at h <;> subst h <;> simp [mkAssign, ho]
    · split at h
      · simp at h
      · split at h <;> simp at h <;> subst h <;> simp [mkAssign, ho]
  case assign =>
    simp only [normInsn, ho] at h
    obtain ⟨t0, h0, h⟩ := Out.bind_eq_ok.1 h
    simp at h; subst h
    exact assign_noret hn h0

/-! ## Walking through a block -/

/-- A slot of the program that can be reached, or the end. -/
def Ok (code : List Slot) (k : Nat) : Prop := k < code.length → SlotReach code k

theorem walk_slots {code : List Slot} : ∀ (L : List Slot) {k : Nat}, At code k L → (∀ s ∈ L, s.code ≠ 0x05 ∧ s.code ≠ 0x95) → Ok code k → ∀ j ≤ L.length, Ok code (k + j)
  | [], k, _, _, h, j, hj => by
    have : j = 0 := by simpa using hj
    rw [this]; exact h
  | s :: L, k, ha, hs, h, j, hj => by
    cases j with
    | zero => exact h
    | succ j =>
      have h1 := hs s (by simp)
      have hk : k < code.length := (List.getElem?_eq_some_iff.1 ha.head).1
      have h2 : Ok code (k + 1) := fun hl => .next (h hk) (flow_runs ha.head h1.1 h1.2) hl
      have := walk_slots L ha.tail (fun s hs' => hs s (List.mem_cons_of_mem _ hs')) h2 j (by simpa using hj)
      rwa [show k + (j + 1) = k + 1 + j by omega]

theorem slots_run {p : Pre} (h : Runs p) : ∀ s ∈ p.slots, s.code ≠ 0x05 ∧ s.code ≠ 0x95 := by
  intro s hs
  cases hi : p.it with
  | imm =>
    rw [slots_narrow hi] at hs
    rw [List.mem_singleton.1 hs]
    exact h
  | imm64 =>
    obtain ⟨s2, e, e2⟩ := slots_wide hi
    rw [e] at hs
    rcases List.mem_cons.1 hs with rfl | hs
    · exact h
    · rw [List.mem_singleton.1 hs, e2]; decide

/-- No unconditional jump and no return. -/
def Calm (l : List TInsn) : Prop := ∀ t ∈ l, t.insn.op ≠ .ja ∧ t.insn.op ≠ .ret

def Tr (l : List TInsn) : Prop := ∀ t ∈ l, trInsn t.insn = .ok t.tr

theorem tr_single {i : FInsn} {ps : List Pre} (hj : isJump i.op = true) (h : trInsn i = .ok ps) : ∃ p, ps = [p] := by
  by_cases ha : i.op = .ja
  · simp [trInsn, ha] at h
    exact ⟨_, h.symm⟩
  · have hc : i.op.condJmp = true := by simpa [isJump, ha] using hj
    rw [trInsn_cond hc, trCondJmp] at h
    obtain ⟨t0, h0, h⟩ := Out.bind_eq_ok.1 h
    obtain ⟨t1, h1, h⟩ := Out.bind_eq_ok.1 h
    obtain ⟨u, h2, h⟩ := Out.bind_eq_ok.1 h
    split at h
    · split at h
      · obtain ⟨c, h3, h⟩ := Out.bind_eq_ok.1 h
        cases h; exact ⟨_, rfl⟩
      · split at h
        · split at h
          · cases h
          · obtain ⟨c, h3, h⟩ := Out.bind_eq_ok.1 h
            cases h; exact ⟨_, rfl⟩
        · cases h
    · cases h

section
variable {ts A B : List TBlock} {b : TBlock} {code : List Slot} (hts : ts = A ++ b :: B) (he : emitT ts = .ok code)
include hts he

theorem calm_walk : ∀ (x pre post : List TInsn), b.body = pre ++ (x ++ post) → Calm x → Tr x → Ok code (total (mc A) + total (mcI pre)) →
    ∀ j ≤ total (mcI x), Ok code (total (mc A) + total (mcI pre) + j)
  | [], pre, post, _, _, _, h, j, hj => by
    have : j = 0 := by simpa [mcI, total] using hj
    rw [this]; exact h
  | t :: x, pre, post, hb, hc, htr, h, j, hj => by
    have c1 := hc t (by simp)
    have t1 := htr t (by simp)
    have hrun := tr_runs c1.1 c1.2 t1
    -- the slots of this instruction
    have hAt : ∃ L : List Slot, At code (total (mc A) + total (mcI pre)) L ∧ L.length = total t.tr ∧ ∀ s ∈ L, s.code ≠ 0x05 ∧ s.code ≠ 0x95 := by
      cases hj : isJump t.insn.op with
      | false =>
        have := place_line (mid := [t]) hts (by rw [hb]; rfl) he (by simpa using hj)
        refine ⟨_, this, by rw [slotsOf_length]; simp [mcI], fun s hs => ?_⟩
        simp only [slotsOf, mcI, List.flatMap_cons, List.flatMap_nil, List.append_nil, List.mem_flatMap] at hs
        obtain ⟨p, hp, hs⟩ := hs
        exact slots_run (hrun p hp) s hs
      | true =>
        obtain ⟨p, ep⟩ := tr_single hj t1
        obtain ⟨tp, -, this⟩ := place_jump hts (i := t) (by rw [hb]; rfl) he hj ep
        refine ⟨_, this, by rw [slots_length, ep]; simp [total, width], fun s hs => ?_⟩
        exact slots_run (p := { p with off := jumpOff tp (total (mc A) + total (mcI pre)) }) (hrun p (by rw [ep]; simp)) s hs
    obtain ⟨L, hA, hL, hs⟩ := hAt
    have hw := walk_slots L hA hs h
    have e1 : total (mcI (t :: x)) = total t.tr + total (mcI x) := by simp [mcI]
    have e2 : total (mcI (pre ++ [t])) = total (mcI pre) + total t.tr := by simp [mcI]
    by_cases hle : j ≤ L.length
    · exact hw j hle
    · have h3 : Ok code (total (mc A) + total (mcI (pre ++ [t]))) := by
        have := hw L.length (Nat.le_refl _)
        rw [hL] at this
        rw [e2, ← Nat.add_assoc]; exact this
      have := calm_walk x (pre ++ [t]) post (by rw [hb]; simp) (fun t ht => hc t (List.mem_cons_of_mem _ ht)) (fun t ht => htr t (List.mem_cons_of_mem _ ht)) h3
        (j - total t.tr) (by omega)
      rw [e2] at this
      rwa [show total (mc A) + (total (mcI pre) + total t.tr) + (j - total t.tr) = total (mc A) + total (mcI pre) + j by omega] at this

/-- Where a jump leads. -/
theorem jump_walk {pre post : List TInsn} {t : TInsn} (hb : b.body = pre ++ t :: post) (hj : isJump t.insn.op = true) (htr : trInsn t.insn = .ok t.tr)
    (hlen : code.length ≤ 32768) (hnd : (ts.map (·.id)).Nodup) (h : Ok code (total (mc A) + total (mcI pre))) {A' B' : List TBlock} {c : TBlock}
    (hc : ts = A' ++ c :: B') (hid : c.id = jumpTarget t.insn) : Ok code (total (mc A')) := by
  obtain ⟨p, ep⟩ := tr_single hj htr
  obtain ⟨tp, h1, h2⟩ := place_jump hts hb he hj ep
  rw [← hid, bbPos_block hc hnd] at h1
  cases h1
  obtain ⟨l1, l2⟩ := tr_leaps hj htr p (by rw [ep]; simp)
  obtain ⟨j, l3, l4⟩ := l2 (jumpOff (total (mc A')) (total (mc A) + total (mcI pre)))
  rw [slots_narrow (by exact l1), headOf_narrow (by exact l1)] at h2
  have hk := (List.getElem?_eq_some_iff.1 h2.head).1
  intro hl
  refine .next (h hk) ?_ hl
  rw [flow_eq h2.head, l3]
  have := flowI_leap (q := ((total (mc A) + total (mcI pre) : Nat) : Int)) l4
  rwa [jumpOff_toInt (by omega) (by omega)] at this

end

/-! ## Lowering -/

theorem lowerIs_app {a b : List FInsn} {r : List TInsn} (h : lowerIs (a ++ b) = .ok r) : ∃ x y, lowerIs a = .ok x ∧ lowerIs b = .ok y ∧ r = x ++ y := by
  induction a generalizing r with
  | nil => exact ⟨[], r, rfl, h, rfl⟩
  | cons i a ih =>
    simp only [List.cons_append, lowerIs] at h
    obtain ⟨p, h1, h⟩ := Out.bind_eq_ok.1 h
    obtain ⟨q, h2, h⟩ := Out.bind_eq_ok.1 h
    cases h
    obtain ⟨x, y, e0, e1, rfl⟩ := ih h2
    exact ⟨p ++ x, y, by simp [lowerIs, h1, e0], e1, by simp⟩

theorem lowerIs_tr {is : List FInsn} {r : List TInsn} (h : lowerIs is = .ok r) : Tr r := by
  induction is generalizing r with
  | nil => cases h; intro t ht; cases ht
  | cons i is ih =>
    simp only [lowerIs] at h
    obtain ⟨a, h1, h⟩ := Out.bind_eq_ok.1 h
    obtain ⟨b, h2, h⟩ := Out.bind_eq_ok.1 h
    cases h
    intro t ht
    rcases List.mem_append.1 ht with ht | ht
    · simp only [lowerI] at h1
      obtain ⟨js, h3, h1⟩ := Out.bind_eq_ok.1 h1
      exact trInsns_each h1 t ht
    · exact ih h2 t ht

/-- What is written for a conditional jump on something not known. -/
theorem lowerI_test {i : FInsn} {r : List TInsn} (hc : i.op.condJmp = true) (hb : ¬ ConstBoth i) (h : lowerI i = .ok r) :
    ∃ t, r = [t] ∧ t.insn.op.condJmp = true ∧ t.insn.bb2 = i.bb2 := by
  simp only [lowerI] at h
  obtain ⟨js, h1, h⟩ := Out.bind_eq_ok.1 h
  obtain ⟨j, rfl, h2, h3⟩ := norm_test hc hb h1
  simp only [trInsns] at h
  obtain ⟨ps, -, h⟩ := Out.bind_eq_ok.1 h
  cases h
  exact ⟨⟨j, ps⟩, rfl, h2, h3⟩

theorem lowerI_calm {i : FInsn} {r : List TInsn} (h1 : i.op ≠ .ja) (h2 : i.op ≠ .ret) (hb : i.op.condJmp = true → ¬ ConstBoth i) (h : lowerI i = .ok r) : Calm r := by
  cases hc : i.op.condJmp with
  | true =>
    obtain ⟨t, rfl, e, -⟩ := lowerI_test hc (hb hc) h
    intro u hu
    rw [List.mem_singleton.1 hu]
    exact ⟨condJmp_ne_ja e, fun e' => by rw [e'] at e; cases e⟩
  | false =>
    have hj : isJump i.op = false := by simp [isJump, h1, hc]
    have k1 := lowerI_nojump hj h
    simp only [lowerI] at h
    obtain ⟨js, h3, h⟩ := Out.bind_eq_ok.1 h
    have k2 := norm_noret h2 hc h3
    intro t ht
    refine ⟨fun e => ?_, k2 _ ?_⟩
    · have := k1 t ht
      rw [e] at this
      simp [isJump] at this
    · rw [← (trInsns_mapCat h).2]
      exact List.mem_map.2 ⟨t, ht, rfl⟩

theorem lowerIs_calm {is : List FInsn} {r : List TInsn} (hs : ∀ i ∈ is, i.op ≠ .ja ∧ i.op ≠ .ret) (hb : ∀ i ∈ is, i.op.condJmp = true → ¬ ConstBoth i)
    (h : lowerIs is = .ok r) : Calm r := by
  induction is generalizing r with
  | nil => cases h; intro t ht; cases ht
  | cons i is ih =>
    simp only [lowerIs] at h
    obtain ⟨a, h1, h⟩ := Out.bind_eq_ok.1 h
    obtain ⟨b, h2, h⟩ := Out.bind_eq_ok.1 h
    cases h
    intro t ht
    rcases List.mem_append.1 ht with ht | ht
    · exact lowerI_calm (hs i (by simp)).1 (hs i (by simp)).2 (hb i (by simp)) h1 t ht
    · exact ih (fun j hj => hs j (List.mem_cons_of_mem _ hj)) (fun j hj => hb j (List.mem_cons_of_mem _ hj)) h2 t ht

/-- The lowered form of a return or an unconditional jump. -/
theorem lowerI_last {i : FInsn} {r : List TInsn} (ho : i.op = .ja ∨ i.op = .ret) (h : lowerI i = .ok r) :
    ∃ x t, r = x ++ [t] ∧ Calm x ∧ total t.tr = 1 ∧ (i.op = .ja → x = [] ∧ t.insn = i) := by
  rcases ho with ho | ho
  · rw [lowerI_ja ho h]
    exact ⟨[], _, rfl, fun t ht => (by cases ht), by simp [total, width, jaP], fun _ => ⟨rfl, rfl⟩⟩
  · simp only [lowerI, normInsn, ho, normRet] at h
    obtain ⟨js, h1, h⟩ := Out.bind_eq_ok.1 h
    have hl : ∃ a j, js = a ++ [j] ∧ j.op = .ret ∧ ∀ k ∈ a, k.op ≠ .ja ∧ k.op ≠ .ret := by
      split at h1
      · cases h1; exact ⟨[], i, rfl, ho, fun k hk => (by cases hk)⟩
      · obtain ⟨t0, -, h1⟩ := Out.bind_eq_ok.1 h1
        obtain ⟨u, -, h1⟩ := Out.bind_eq_ok.1 h1
        cases h1
        exact ⟨[_], _, rfl, rfl, fun k hk => by rw [List.mem_singleton.1 hk]; simp [mkAssign]⟩
    obtain ⟨a, j, rfl, hj, ha⟩ := hl
    obtain ⟨x, y, e1, e2, rfl⟩ := trInsns_append.1 h
    simp [trInsns, trInsn, hj] at e2
    subst e2
    refine ⟨x, _, rfl, fun t ht => ha _ ?_, by simp [total, width, exitP], fun e => by rw [ho] at e; cases e⟩
    rw [← (trInsns_mapCat e1).2]
    exact List.mem_map.2 ⟨t, ht, rfl⟩

end Verif.Compile
