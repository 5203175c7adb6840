import Verif.Compile.EmitSafe
import Verif.Spec.Formed
/-!
# The slots that are written are instructions (helper lemmas)

Every machine instruction that translation produces is decoded again, wide loads are written with both halves,
and the offsets set by `relocate` lead to the start of a block.
-/
set_option linter.unusedSimpArgs false
namespace Verif.Compile
open Verif Verif.Norm Verif.Emit Verif.Bpf

/-! ## Loads from a constant address -/

/-- Not a load from a constant address: `load_addr_to_reg` (core/ir_cg_norm.c:719-726) writes one that is
no instruction. -/
def Away (i : FInsn) : Prop := i.op = .loadraw → ∀ k c ct b, i.addr ≠ .const k c ct b

def AllAway (is : List FInsn) : Prop := ∀ j ∈ is, Away j

@[simp] theorem AllAway_nil : AllAway [] := by simp [AllAway]
@[simp] theorem AllAway_cons (i is) : AllAway (i :: is) ↔ Away i ∧ AllAway is := by simp [AllAway]
@[simp] theorem AllAway_append (a b) : AllAway (a ++ b) ↔ AllAway a ∧ AllAway b := by
  simp only [AllAway, List.mem_append]
  exact ⟨fun h => ⟨fun j hj => h j (Or.inl hj), fun j hj => h j (Or.inr hj)⟩,
    fun h j hj => hj.elim (h.1 j) (h.2 j)⟩

theorem Away.of_op {i : FInsn} (h : i.op ≠ .loadraw) : Away i := fun e => absurd e h

theorem assign_away {i : FInsn} {r : Option FInsn} (hn : i.op ≠ .loadraw) (h : normAssign i = .ok r) : AllAway r.toList := by
  simp only [normAssign] at h
  obtain ⟨t0, h0, h⟩ := Out.bind_eq_ok.1 h
  split at h
  · obtain ⟨u, h1, h⟩ := Out.bind_eq_ok.1 h
    simp at h; subst h; simp [Away]
  · split at h
    · simp at h; subst h; simp
    · simp at h; subst h
      simp only [Option.toList, AllAway_cons, AllAway_nil, and_true]
      split
      · simp [Away]
      · split
        · simp [Away, stackPtr]
        · exact .of_op hn

theorem loadConst_away (v d) : Away (normLoadConst v d) := by
  simp only [normLoadConst]
  split <;> simp [Away, mkAssign]

theorem alu_away {i : FInsn} {r : List FInsn} (hn : i.op ≠ .loadraw) (h : normAlu i = .ok r) : AllAway r := by
  simp only [normAlu] at h
  obtain ⟨t0, h0, h⟩ := Out.bind_eq_ok.1 h
  obtain ⟨t1, h1, h⟩ := Out.bind_eq_ok.1 h
  obtain ⟨u, h2, h⟩ := Out.bind_eq_ok.1 h
  obtain ⟨⟨pre, j, t0', t1'⟩, h3, h⟩ := Out.bind_eq_ok.1 h
  simp only at h
  have hp : AllAway pre ∧ j.op ≠ .loadraw := by
    split at h3
    · split at h3
      · simp at h3; obtain ⟨rfl, rfl, -⟩ := h3; exact ⟨by simp, hn⟩
      · split at h3
        · simp at h3; obtain ⟨rfl, rfl, -⟩ := h3; simp [Away]
        · simp at h3
    · simp at h3; obtain ⟨rfl, rfl, -⟩ := h3; exact ⟨by simp, hn⟩
  obtain ⟨hp, hj⟩ := hp
  have hj' : ∀ v, Away { j with v0 := v } := fun v => .of_op hj
  have hjj : Away j := .of_op hj
  obtain ⟨u1, h4, h⟩ := Out.bind_eq_ok.1 h
  obtain ⟨u2, h5, h⟩ := Out.bind_eq_ok.1 h
  split at h
  · obtain ⟨n, h6, h⟩ := Out.bind_eq_ok.1 h
    simp at h; subst h
    have := assign_away (by simp [mkAssign]) h6
    simp [hp, this, hj']
  · split at h
    · have ha : Away (mkAssign j.dst j.v0) := by simp [Away, mkAssign]
      split at h <;> simp at h <;> subst h <;> simp [hp, ha, hj', hjj]
    · split at h
      · simp at h; subst h; simp [hp, loadConst_away, hj']
      · simp at h

theorem norm_away {i : FInsn} {r : List FInsn} (hn : Away i) (h : normInsn i = .ok r) : AllAway r := by
  cases ho : i.op
  case alloc | allocarray | loadimm | call | ja => simp [normInsn, ho] at h; subst h; simpa using hn
  case jeq | jgt | jge | jlt | jle | jne | jsge | jsle | jsgt | jslt =>
    have hc : i.op.condJmp = true := by rw [ho]; rfl
    rcases norm_cond hc h with rfl | ⟨j, rfl, h2, -⟩
    · simp
    · simp only [AllAway_cons, AllAway_nil, and_true]
      refine .of_op fun e => ?_
      rw [e] at h2; simp [isJump, Op.condJmp] at h2
  case add | sub | mul | div | or | and | lsh | arsh | rsh | mod | xor =>
    have h0 : normInsn i = normAlu i := by simp [normInsn, ho, Op.binAlu]
    exact alu_away (by rw [ho]; simp) (h0 ▸ h)
  case throw | phi | reg | funarg | ecall => simp [normInsn, ho, Op.binAlu, Op.condJmp] at h
  case getelemptr =>
    simp only [normInsn, ho, normGetelemptr] at h
    obtain ⟨t0, h0, h⟩ := Out.bind_eq_ok.1 h
    obtain ⟨t1, h1, h⟩ := Out.bind_eq_ok.1 h
    obtain ⟨u, h2, h⟩ := Out.bind_eq_ok.1 h
    obtain ⟨u', h3, h⟩ := Out.bind_eq_ok.1 h
    split at h
    · obtain ⟨u'', h3, h⟩ := Out.bind_eq_ok.1 h
      refine alu_away ?_ h
      split <;> simp
    · split at h
      · split at h <;> simp at h <;> subst h <;> simp [Away, mkAssign]
      · simp at h; subst h; simp [Away]
  case store =>
    simp only [normInsn, ho, normStore] at h
    split at h
    · obtain ⟨t0, h0, h⟩ := Out.bind_eq_ok.1 h
      simp at h; subst h
      exact assign_away (by simp) h0
    · simp at h
  case load =>
    simp only [normInsn, ho, normLoad] at h
    obtain ⟨t0, h0, h⟩ := Out.bind_eq_ok.1 h
    simp at h; subst h
    exact assign_away (by simp) h0
  case loadraw | storeraw =>
    simp only [normInsn, ho, normStackoff] at h
    obtain ⟨t0, h0, h⟩ := Out.bind_eq_ok.1 h
    split at h <;> simp at h <;> subst h
    · simp [Away, stackPtr]
    · simpa using hn
  case neg | htobe | htole =>
    simp only [normInsn, ho, normUnary] at h
    obtain ⟨t0, h0, h⟩ := Out.bind_eq_ok.1 h
    obtain ⟨u, h1, h⟩ := Out.bind_eq_ok.1 h
    split at h
    · split at h <;> simp at h <;> subst h <;> simp [Away, mkAssign, ho]
    · split at h
      · simp at h
      · split at h <;> simp at h <;> subst h <;> simp [Away, mkAssign, ho]
  case assign =>
    simp only [normInsn, ho] at h
    obtain ⟨t0, h0, h⟩ := Out.bind_eq_ok.1 h
    simp at h; subst h
    exact assign_away (by rw [ho]; simp) h0
  case ret =>
    simp only [normInsn, ho, normRet] at h
    split at h
    · simp at h; subst h; simpa using hn
    · obtain ⟨t0, h0, h⟩ := Out.bind_eq_ok.1 h
      obtain ⟨u, h1, h⟩ := Out.bind_eq_ok.1 h
      simp at h; subst h
      simp [Away, mkAssign, ho]

/-! ## What translation writes -/

/-- The slot of a narrow machine instruction. -/
def slotOf (p : Pre) : Slot := ⟨p.opcode, BitVec.ofNat 4 p.dst, BitVec.ofNat 4 p.src, p.off, p.imm⟩

/-- A machine instruction that does not jump: a narrow one that is decoded, or a wide load. -/
def Stays (p : Pre) : Prop :=
  (p.it = .imm ∧ ∃ i, decode (slotOf p) = some i ∧ jumpOffset i = none ∧ ∀ d k, i ≠ .ldimm d k) ∨
  (p.it = .imm64 ∧ p.opcode = 0x18)

/-- A machine instruction that is decoded as a jump, whatever offset is set. -/
def Leaps (p : Pre) : Prop :=
  p.it = .imm ∧ ∀ off, ∃ i, decode (slotOf { p with off := off }) = some i ∧ jumpOffset i = some off

theorem stays_ldx {d s : Reg} {off : BitVec 16} {t : VrTy} {sz : BitVec 8} (h : vrSize t = .ok sz) : Stays (ldxP d s off sz) := by
  refine .inl ⟨rfl, ?_⟩
  cases t <;> simp [vrSize] at h <;> subst h <;> simp [slotOf, ldxP, decode, jumpOffset]

theorem stays_stx {d s : Reg} {off : BitVec 16} {t : VrTy} {sz : BitVec 8} (h : vrSize t = .ok sz) : Stays (stxP d s off sz) := by
  refine .inl ⟨rfl, ?_⟩
  cases t <;> simp [vrSize] at h <;> subst h <;> simp [slotOf, stxP, decode, jumpOffset]

theorem stays_st {d : Reg} {c : BitVec 32} {off : BitVec 16} {t : VrTy} {sz : BitVec 8} (h : vrSize t = .ok sz) : Stays (stP d c off sz) := by
  refine .inl ⟨rfl, ?_⟩
  cases t <;> simp [vrSize] at h <;> subst h <;> simp [slotOf, stP, decode, jumpOffset]

theorem stays_aluReg {d s : Reg} {t : AluTy} {o : Op} {c : BitVec 8} (ho : o.binAlu = true) (h : aluCode o = .ok c) : Stays (aluRegP d s t c) := by
  refine .inl ⟨rfl, ?_⟩
  cases o <;> simp [Op.binAlu] at ho <;> simp [aluCode] at h <;> subst h <;> cases t <;>
    simp [slotOf, aluRegP, aluClass, decode, Bpf.aluOp, jumpOffset]

theorem stays_aluImm {d : Reg} {v : BitVec 64} {t : AluTy} {o : Op} {c : BitVec 8} (ho : o.binAlu = true) (h : aluCode o = .ok c) : Stays (aluImmP d v t c) := by
  refine .inl ⟨rfl, ?_⟩
  cases o <;> simp [Op.binAlu] at ho <;> simp [aluCode] at h <;> subst h <;> cases t <;>
    simp [slotOf, aluImmP, aluClass, decode, Bpf.aluOp, jumpOffset]

theorem leaps_reg {d s : Reg} {t : AluTy} {o : Op} {c : BitVec 8} (ho : o.condJmp = true) (h : jmpCode o = .ok c) : Leaps (condJmpRegP d s t c) := by
  refine ⟨rfl, fun off => ?_⟩
  cases o <;> simp [Op.condJmp] at ho <;> simp [jmpCode] at h <;> subst h <;> cases t <;>
    simp [slotOf, condJmpRegP, jmpClass, decode, Bpf.condOp, jumpOffset]

theorem leaps_imm {d : Reg} {v : BitVec 64} {t : AluTy} {o : Op} {c : BitVec 8} (ho : o.condJmp = true) (h : jmpCode o = .ok c) : Leaps (condJmpImmP d v t c) := by
  refine ⟨rfl, fun off => ?_⟩
  cases o <;> simp [Op.condJmp] at ho <;> simp [jmpCode] at h <;> subst h <;> cases t <;>
    simp [slotOf, condJmpImmP, jmpClass, decode, Bpf.condOp, jumpOffset]

/-- Jumps are written as jumps. -/
theorem tr_leaps {i : FInsn} {ps : List Pre} (hj : isJump i.op = true) (h : trInsn i = .ok ps) : ∀ p ∈ ps, Leaps p := by
  by_cases ha : i.op = .ja
  · simp [trInsn, ha] at h
    subst h
    intro p hp
    rw [List.mem_singleton.1 hp]
    exact ⟨rfl, fun off => ⟨.ja off, by simp [slotOf, jaP, decode], rfl⟩⟩
  · have hc : i.op.condJmp = true := by simpa [isJump, ha] using hj
    rw [trInsn_cond hc, trCondJmp] at h
    obtain ⟨t0, h0, h⟩ := Out.bind_eq_ok.1 h
    obtain ⟨t1, h1, h⟩ := Out.bind_eq_ok.1 h
    obtain ⟨u, h2, h⟩ := Out.bind_eq_ok.1 h
    split at h
    · split at h
      · obtain ⟨c, h3, h⟩ := Out.bind_eq_ok.1 h
        cases h
        intro p hp
        rw [List.mem_singleton.1 hp]
        exact leaps_reg hc h3
      · split at h
        · split at h
          · cases h
          · obtain ⟨c, h3, h⟩ := Out.bind_eq_ok.1 h
            cases h
            intro p hp
            rw [List.mem_singleton.1 hp]
            exact leaps_imm hc h3
        · cases h
    · cases h

/-- Everything else is written as an instruction that does not jump. -/
theorem tr_stays {i : FInsn} {ps : List Pre} (hw : Away i) (hj : isJump i.op = false) (h : trInsn i = .ok ps) : ∀ p ∈ ps, Stays p := by
  have one : ∀ {q : Pre}, ps = [q] → Stays q → ∀ p ∈ ps, Stays p := by
    intro q e hq p hp
    rw [e] at hp
    rw [List.mem_singleton.1 hp]
    exact hq
  have none : ps = [] → ∀ p ∈ ps, Stays p := by
    intro e p hp
    rw [e] at hp; cases hp
  have alu : i.op.binAlu = true → ∀ p ∈ ps, Stays p := by
    intro ho
    rw [trInsn_alu ho, trAlu] at h
    obtain ⟨t0, h0, h⟩ := Out.bind_eq_ok.1 h
    obtain ⟨t1, h1, h⟩ := Out.bind_eq_ok.1 h
    obtain ⟨u, h2, h⟩ := Out.bind_eq_ok.1 h
    obtain ⟨u', h3, h⟩ := Out.bind_eq_ok.1 h
    obtain ⟨u'', h4, h⟩ := Out.bind_eq_ok.1 h
    split at h
    · obtain ⟨c, h5, h⟩ := Out.bind_eq_ok.1 h
      cases h
      exact one rfl (stays_aluReg ho h5)
    · split at h
      · split at h
        · cases h; exact none rfl
        · obtain ⟨c, h5, h⟩ := Out.bind_eq_ok.1 h
          cases h
          exact one rfl (stays_aluImm ho h5)
      · cases h
  cases ho : i.op
  case add | sub | mul | div | or | and | lsh | arsh | rsh | mod | xor => exact alu (by rw [ho]; rfl)
  case ja | jeq | jgt | jge | jlt | jle | jne | jsge | jsle | jsgt | jslt => simp [isJump, ho, Op.condJmp] at hj
  case throw | phi | reg | funarg | ecall => simp [trInsn, ho, Op.binAlu, Op.condJmp] at h
  case store | load | getelemptr => simp [trInsn, ho] at h
  case alloc | allocarray => simp [trInsn, ho] at h; exact none h
  case ret =>
    simp [trInsn, ho] at h
    exact one h.symm (.inl ⟨rfl, .exit, by simp [slotOf, exitP, decode], rfl, by simp⟩)
  case call =>
    simp [trInsn, ho] at h
    exact one h.symm (.inl ⟨rfl, .call i.aux, by simp [slotOf, callP, decode], rfl, by simp⟩)
  case loadimm =>
    simp only [trInsn, ho, trLoadimm] at h
    obtain ⟨u, h1, h⟩ := Out.bind_eq_ok.1 h
    obtain ⟨u', h2, h⟩ := Out.bind_eq_ok.1 h
    cases h
    exact one rfl (.inr ⟨rfl, rfl⟩)
  case loadraw =>
    simp only [trInsn, ho, trLoadraw, loadAddr] at h
    obtain ⟨u, h1, h⟩ := Out.bind_eq_ok.1 h
    obtain ⟨q, h2, h⟩ := Out.bind_eq_ok.1 h
    cases h
    obtain ⟨sz, h3, h2⟩ := Out.bind_eq_ok.1 h2
    split at h2
    · obtain ⟨u', h4, h2⟩ := Out.bind_eq_ok.1 h2
      cases h2
      exact one rfl (stays_ldx h3)
    · rename_i e
      exact absurd e (hw ho _ _ _ _)
    · cases h2
  case storeraw =>
    simp only [trInsn, ho, trStoreraw] at h
    obtain ⟨t0, h0, h⟩ := Out.bind_eq_ok.1 h
    split at h
    · obtain ⟨u, h1, h⟩ := Out.bind_eq_ok.1 h
      split at h
      · obtain ⟨q, h2, h⟩ := Out.bind_eq_ok.1 h
        cases h
        obtain ⟨sz, h3, h2⟩ := Out.bind_eq_ok.1 h2
        cases h2
        exact one rfl (stays_stx h3)
      · split at h
        · obtain ⟨q, h2, h⟩ := Out.bind_eq_ok.1 h
          cases h
          obtain ⟨sz, h3, h2⟩ := Out.bind_eq_ok.1 h2
          cases h2
          exact one rfl (stays_st h3)
        · cases h
    · cases h
  case neg =>
    simp only [trInsn, ho, trNeg] at h
    obtain ⟨t0, h0, h⟩ := Out.bind_eq_ok.1 h
    obtain ⟨u, h1, h⟩ := Out.bind_eq_ok.1 h
    obtain ⟨u', h2, h⟩ := Out.bind_eq_ok.1 h
    cases h
    refine one rfl (.inl ⟨rfl, ?_⟩)
    cases i.aluOp <;> simp [slotOf, aluNegP, aluClass, decode, jumpOffset]
  case htobe | htole =>
    simp only [trInsn, ho, trEnd] at h
    obtain ⟨t0, h0, h⟩ := Out.bind_eq_ok.1 h
    obtain ⟨u, h1, h⟩ := Out.bind_eq_ok.1 h
    obtain ⟨u', h2, h⟩ := Out.bind_eq_ok.1 h
    obtain ⟨u'', h3, h⟩ := Out.bind_eq_ok.1 h
    cases h
    refine one rfl (.inl ⟨rfl, ?_⟩)
    simp [slotOf, aluEndP, decode, jumpOffset]
  case assign =>
    simp only [trInsn, ho, trAssign] at h
    obtain ⟨t0, h0, h⟩ := Out.bind_eq_ok.1 h
    split at h
    · cases h
      refine one rfl (.inl ⟨rfl, ?_⟩)
      cases i.aluOp <;> simp [slotOf, constToReg, decode, Bpf.aluOp, jumpOffset]
    · split at h
      · split at h
        · cases h; exact none rfl
        · cases h
          refine one rfl (.inl ⟨rfl, ?_⟩)
          simp [slotOf, regToReg, decode, Bpf.aluOp, jumpOffset]
      · cases h


/-! ## The written slots -/

/-- The first slot of a machine instruction. -/
def headOf (p : Pre) : Slot :=
  ⟨p.opcode, BitVec.ofNat 4 p.dst, BitVec.ofNat 4 p.src, p.off, match p.it with | .imm => p.imm | .imm64 => p.imm64.setWidth 32⟩

theorem headOf_narrow {p : Pre} (h : p.it = .imm) : headOf p = slotOf p := by simp [headOf, slotOf, h]

theorem slots_narrow {p : Pre} (h : p.it = .imm) : p.slots = [headOf p] := by simp [headOf, Pre.slots, h]

theorem slots_wide {p : Pre} (h : p.it = .imm64) : ∃ s2, p.slots = [headOf p, s2] ∧ s2.code = 0 := by
  exact ⟨⟨0, 0, 0, 0, (p.imm64 >>> 32).setWidth 32⟩, by simp [headOf, Pre.slots, h], rfl⟩

theorem decode_zero {s : Slot} (h : s.code = 0) : decode s = none := by
  simp [decode, h]

theorem code_of_decode {s : Slot} {i : Instr} (h : decode s = some i) : s.code ≠ 0 := by
  intro e
  rw [decode_zero e] at h; cases h

theorem decode_wide {p : Pre} (h : p.opcode = 0x18) : decode (headOf p) = some (.ldimm (BitVec.ofNat 4 p.dst) (BitVec.ofNat 4 p.src)) := by
  simp [headOf, decode, h]

/-- What stands at a slot. -/
theorem slots_at (qs : List PPre) : ∀ n, Contig n qs → ∀ k s, (slotsOf (qs.map Prod.snd))[k]? = some s →
    ∃ q ∈ qs, (q.1 = n + k ∧ s = headOf q.2) ∨ (q.1 + 1 = n + k ∧ q.2.it = .imm64 ∧ s.code = 0) := by
  induction qs with
  | nil => intro n _ k s h; simp at h
  | cons q qs ih =>
    intro n hc k s h
    obtain ⟨h1, h2⟩ := hc
    simp only [List.map_cons, slotsOf_cons] at h
    by_cases hk : k < q.2.slots.length
    · rw [List.getElem?_append_left hk] at h
      refine ⟨q, by simp, ?_⟩
      cases hi : q.2.it with
      | imm =>
        rw [slots_narrow hi] at h hk
        simp at hk; subst hk
        simp at h
        exact .inl ⟨by omega, h.symm⟩
      | imm64 =>
        obtain ⟨s2, e, e2⟩ := slots_wide hi
        rw [e] at h hk
        have : k = 0 ∨ k = 1 := by simp at hk; omega
        rcases this with rfl | rfl
        · simp at h; exact .inl ⟨by omega, h.symm⟩
        · simp at h; subst h; exact .inr ⟨by omega, rfl, e2⟩
    · rw [List.getElem?_append_right (by omega), slots_length] at h
      rw [slots_length] at hk
      obtain ⟨r, hr, e⟩ := ih _ h2 _ _ h
      refine ⟨r, List.mem_cons_of_mem _ hr, ?_⟩
      rcases e with ⟨e, e'⟩ | ⟨e, e'⟩
      · exact .inl ⟨by omega, e'⟩
      · exact .inr ⟨by omega, e'⟩

/-- Where a machine instruction stands. -/
theorem at_slots (qs : List PPre) : ∀ n, Contig n qs → ∀ q ∈ qs, ∃ k, q.1 = n + k ∧ k + width q.2 ≤ total (qs.map Prod.snd) ∧
    ∀ j s, q.2.slots[j]? = some s → (slotsOf (qs.map Prod.snd))[k + j]? = some s := by
  induction qs with
  | nil => intro n _ q h; cases h
  | cons r qs ih =>
    intro n hc q hq
    obtain ⟨h1, h2⟩ := hc
    simp only [List.map_cons, slotsOf_cons, total_cons]
    rcases List.mem_cons.1 hq with rfl | hq
    · refine ⟨0, by omega, by omega, fun j s h => ?_⟩
      have hj : j < q.2.slots.length := (List.getElem?_eq_some_iff.1 h).1
      rw [Nat.zero_add, List.getElem?_append_left hj, h]
    · obtain ⟨k, e1, e2, e3⟩ := ih _ h2 q hq
      refine ⟨width r.2 + k, by omega, by omega, fun j s h => ?_⟩
      rw [List.getElem?_append_right (by rw [slots_length]; omega), slots_length]
      have := e3 j s h
      rw [show width r.2 + k + j - width r.2 = k + j by omega]
      exact this

/-- The machine instructions of the result, one behind the other: none is a load from a constant address, and
the jumps lead to the start of one of them or to the end. -/
structure Parts (code : List Slot) (qs : List PPre) : Prop where
  code_eq : code = slotsOf (qs.map Prod.snd)
  contig : Contig 0 qs
  good : ∀ q ∈ qs, Stays q.2 ∨ (q.2.it = .imm ∧ ∃ i off, ∃ t : Nat, decode (slotOf q.2) = some i ∧ jumpOffset i = some off ∧
    (q.1 : Int) + 1 + off.toInt = t ∧ t ≤ code.length ∧ ∀ s, code[t]? = some s → s.code ≠ 0)

theorem Parts.at (h : Parts code qs) {k : Nat} {s : Slot} (hs : code[k]? = some s) :
    ∃ q ∈ qs, (q.1 = k ∧ s = headOf q.2) ∨ (q.1 + 1 = k ∧ q.2.it = .imm64 ∧ s.code = 0) := by
  rw [h.code_eq] at hs
  obtain ⟨q, hq, e⟩ := slots_at qs 0 h.contig k s hs
  rw [Nat.zero_add] at e
  exact ⟨q, hq, e⟩

/-- The second half of a wide load is there, and the first. -/
theorem Parts.both (h : Parts code qs) {q : PPre} (hq : q ∈ qs) (hi : q.2.it = .imm64) :
    code[q.1]? = some (headOf q.2) ∧ ∃ s2, code[q.1 + 1]? = some s2 ∧ s2.code = 0 := by
  obtain ⟨k, e1, _, e3⟩ := at_slots qs 0 h.contig q hq
  rw [Nat.zero_add] at e1
  obtain ⟨s2, e, e2⟩ := slots_wide hi
  rw [e] at e3
  rw [h.code_eq, e1]
  exact ⟨e3 0 _ rfl, s2, e3 1 _ rfl, e2⟩

/-- The first slot of a machine instruction is decoded. -/
theorem Parts.head (h : Parts code qs) {q : PPre} (hq : q ∈ qs) : ∃ i, decode (headOf q.2) = some i ∧
    (q.2.it = .imm64 ↔ ∃ d k, i = .ldimm d k) ∧
    ∀ off, jumpOffset i = some off → ∃ t : Nat, (q.1 : Int) + 1 + off.toInt = t ∧ t ≤ code.length ∧ ∀ s, code[t]? = some s → s.code ≠ 0 := by
  rcases h.good q hq with (⟨h1, i, h2, h3, h4⟩ | ⟨h1, h2⟩) | ⟨h1, i, off, t, h2, h3, h4⟩
  · refine ⟨i, by rw [headOf_narrow h1]; exact h2, ⟨fun e => (by rw [h1] at e; cases e), fun ⟨d, k, e⟩ => absurd e (h4 d k)⟩, fun off e => ?_⟩
    rw [h3] at e; cases e
  · refine ⟨_, decode_wide h2, ⟨fun _ => ⟨_, _, rfl⟩, fun _ => h1⟩, fun off e => ?_⟩
    cases e
  · refine ⟨i, by rw [headOf_narrow h1]; exact h2, ⟨fun e => (by rw [h1] at e; cases e), fun ⟨d, k, e⟩ => ?_⟩, fun off' e => ?_⟩
    · rw [e] at h3; cases h3
    · rw [h3] at e; cases e
      exact ⟨t, h4⟩

theorem Parts.formed (h : Parts code qs) : Formed code := by
  have dec : ∀ {p : Nat} {s : Slot} {i : Instr}, code[p]? = some s → decode s = some i → ∃ q ∈ qs, q.1 = p ∧ s = headOf q.2 := by
    intro p s i hs hd
    obtain ⟨q, hq, ⟨e1, e2⟩ | ⟨_, _, e3⟩⟩ := h.at hs
    · exact ⟨q, hq, e1, e2⟩
    · rw [decode_zero e3] at hd; cases hd
  have jmp : ∀ {p : Nat} {s : Slot} {i : Instr} {off : BitVec 16}, code[p]? = some s → decode s = some i → jumpOffset i = some off →
      ∃ t : Nat, (p : Int) + 1 + off.toInt = t ∧ t ≤ code.length ∧ ∀ s, code[t]? = some s → s.code ≠ 0 := by
    intro p s i off hs hd ho
    obtain ⟨q, hq, rfl, rfl⟩ := dec hs hd
    obtain ⟨i', e1, _, e3⟩ := h.head hq
    rw [e1] at hd; cases hd
    exact e3 off ho
  refine ⟨⟨fun s hs => ?_, fun p s d k hs hd => ?_, fun p s i off hs hd ho => ?_⟩, fun s hs e => ?_, fun p s hs e => ?_, fun p s i off hs hd ho t s' ht hs' => ?_⟩
  · obtain ⟨p, hp⟩ := List.mem_iff_getElem?.1 hs
    obtain ⟨q, hq, ⟨_, rfl⟩ | ⟨_, _, e3⟩⟩ := h.at hp
    · obtain ⟨i, e, _⟩ := h.head hq
      exact .inr (by rw [e]; rfl)
    · exact .inl e3
  · obtain ⟨q, hq, rfl, rfl⟩ := dec hs hd
    obtain ⟨i', e1, e2, _⟩ := h.head hq
    rw [e1] at hd; cases hd
    exact (h.both hq (e2.2 ⟨_, _, rfl⟩)).2
  · obtain ⟨t, e, h1, _⟩ := jmp hs hd ho
    rw [e]
    exact ⟨by omega, by omega⟩
  · obtain ⟨q, hq, ⟨_, rfl⟩ | ⟨e1, _⟩⟩ := h.at hs
    · obtain ⟨i, e', _⟩ := h.head hq
      exact code_of_decode e' e
    · omega
  · obtain ⟨q, hq, ⟨_, rfl⟩ | ⟨e1, e2, _⟩⟩ := h.at hs
    · obtain ⟨i, e', _⟩ := h.head hq
      exact absurd e (code_of_decode e')
    · have e1 : q.1 = p := by omega
      subst e1
      obtain ⟨i, e3, e4, _⟩ := h.head hq
      obtain ⟨d, k, rfl⟩ := e4.1 e2
      exact ⟨_, d, k, (h.both hq e2).1, e3⟩
  · obtain ⟨t', e, _, h2⟩ := jmp hs hd ho
    have : t = t' := by omega
    subst this
    exact h2 s' hs'

/-! ## From the translated blocks -/

theorem Zip.mem_right {α β : Type} {R : α → β → Prop} {as : List α} {bs : List β} (h : Zip R as bs) {b : β} (hb : b ∈ bs) :
    ∃ a ∈ as, R a b := by
  induction h with
  | nil => cases hb
  | cons h _ ih =>
    rcases List.mem_cons.1 hb with rfl | hb
    · exact ⟨_, List.mem_cons_self, h⟩
    · obtain ⟨a, ha, e⟩ := ih hb
      exact ⟨a, List.mem_cons_of_mem _ ha, e⟩

theorem posInsns_mem (is : List TInsn) : ∀ n, ∀ i ∈ (posInsns n is).1, ∃ t ∈ is, i.insn = t.insn ∧ i.tr.map Prod.snd = t.tr := by
  induction is with
  | nil => intro n i hi; cases hi
  | cons t is ih =>
    intro n i hi
    simp only [posInsns] at hi
    rcases List.mem_cons.1 hi with rfl | hi
    · exact ⟨t, List.mem_cons_self, rfl, (posPres_spec t.tr n).2.1⟩
    · obtain ⟨u, hu, e⟩ := ih _ i hi
      exact ⟨u, List.mem_cons_of_mem _ hu, e⟩

theorem posBlocks_mem (ts : List TBlock) : ∀ n, ∀ c ∈ (posBlocks n ts).1, ∃ A b B, ts = A ++ b :: B ∧ c.pos = n + total (mc A) ∧
    c.body = (posInsns (n + total (mc A)) b.body).1 := by
  induction ts with
  | nil => intro n c hc; cases hc
  | cons b ts ih =>
    intro n c hc
    simp only [posBlocks] at hc
    rcases List.mem_cons.1 hc with rfl | hc
    · exact ⟨[], b, ts, rfl, by simp [mc], by simp [mc]⟩
    · obtain ⟨A, b', B, e1, e2, e3⟩ := ih _ c hc
      rw [(posInsns_spec b.body n).2.2.1] at e2 e3
      have : n + total (mcI b.body) + total (mc A) = n + total (mc (b :: A)) := by
        simp [mc, Nat.add_assoc]
      rw [this] at e2 e3
      exact ⟨b :: A, b', B, by rw [e1]; rfl, e2, e3⟩

/-- Where the machine instructions of the result come from. -/
theorem pres_from {ts : List TBlock} {rb : List PBlock} (hr : relocBlocks (posBlocks 0 ts).1 (posBlocks 0 ts).1 = .ok rb)
    {q : PPre} (hq : q ∈ presOf rb) : ∃ b ∈ ts, ∃ t ∈ b.body, ∃ p ∈ t.tr,
      (isJump t.insn.op = false ∧ q.2 = p) ∨
      (isJump t.insn.op = true ∧ ∃ tp, bbPos (posBlocks 0 ts).1 (jumpTarget t.insn) = .ok tp ∧ q.2 = { p with off := jumpOff tp q.1 }) := by
  obtain ⟨-, hz⟩ := relocBlocks_same hr
  simp only [presOf, presOfI, List.mem_flatMap] at hq
  obtain ⟨b', hb', j, hj, hqj⟩ := hq
  obtain ⟨c, hc, -, -, hbody⟩ := Zip.mem_right hz hb'
  obtain ⟨i, hi, hij⟩ := Zip.mem_right hbody hj
  obtain ⟨A, b, B, e1, -, e3⟩ := posBlocks_mem ts 0 c hc
  rw [e3] at hi
  obtain ⟨t, ht, e4, e5⟩ := posInsns_mem b.body _ i hi
  refine ⟨b, by rw [e1]; simp, t, ht, ?_⟩
  by_cases hjmp : isJump t.insn.op = true
  · have hp := relocInsn_jump (by rw [e4]; exact hjmp) hij
    simp only [patch] at hp
    split at hp
    · rename_i pos p htr
      obtain ⟨tp, h1, h2⟩ := Out.bind_eq_ok.1 hp
      cases h2
      rw [htr] at e5
      have hm : q = (pos, { p with off := jumpOff tp pos }) := by simpa using hqj
      refine ⟨p, by rw [← e5]; simp, .inr ⟨hjmp, tp, by rw [← e4]; exact h1, by rw [hm]⟩⟩
    · cases hp
  · have hn : isJump t.insn.op = false := by simpa using hjmp
    have e6 : j = i := by
      have h1 : i.insn.op ≠ .ja := by
        intro e; rw [← e4, e] at hn; simp [isJump] at hn
      have h2 : ¬ i.insn.op.condJmp = true := by
        intro e; rw [← e4] at hn; simp [isJump, e] at hn
      simp only [relocInsn, if_neg h1, if_neg h2] at hij
      cases hij; rfl
    rw [e6] at hqj
    exact ⟨q.2, by rw [← e5]; exact List.mem_map.2 ⟨q, hqj, rfl⟩, .inl ⟨hn, rfl⟩⟩

/-- The position of a block is the length of the blocks in front of it. -/
theorem bbPos_split {ts : List TBlock} {t tp : Nat} (h : bbPos (posBlocks 0 ts).1 t = .ok tp) :
    ∃ A b B, ts = A ++ b :: B ∧ tp = total (mc A) := by
  simp only [bbPos] at h
  split at h
  · rename_i c hc
    cases h
    obtain ⟨A, b, B, e1, e2, -⟩ := posBlocks_mem ts 0 c (List.mem_of_find?_eq_some hc)
    exact ⟨A, b, B, e1, by omega⟩
  · cases h

/-- The machine instructions in front of a block and those behind. -/
theorem pres_split {ts A B : List TBlock} {rb : List PBlock} (hr : relocBlocks (posBlocks 0 ts).1 (posBlocks 0 ts).1 = .ok rb)
    (hts : ts = A ++ B) : ∃ Q1 Q2, presOf rb = Q1 ++ Q2 ∧ total (Q1.map Prod.snd) = total (mc A) ∧
      ∃ X, X.map Prod.snd = mc B ∧ Zip PSame X Q2 := by
  obtain ⟨hz, -⟩ := relocBlocks_same hr
  have e := (posBlocks_spec ts 0).2.1
  have e' : mc ts = mc A ++ mc B := by rw [hts]; simp [mc]
  rw [e'] at e
  obtain ⟨X1, X2, e1, e2, e3⟩ := List.map_eq_append_iff.1 e
  rw [e1] at hz
  obtain ⟨Q1, Q2, f1, f2, f3⟩ := hz.split
  exact ⟨Q1, Q2, f1, by rw [total_zip f2, e2], X2, e3, f3⟩

/-- Blocks of translated instructions without a load from a constant address. -/
def Lowered (ts : List TBlock) : Prop := ∀ b ∈ ts, ∀ t ∈ b.body, Away t.insn ∧ trInsn t.insn = .ok t.tr

theorem emit_parts {ts : List TBlock} {code : List Slot} (hl : Lowered ts) (he : emitT ts = .ok code) (hlen : code.length ≤ 32768) :
    ∃ rb, relocBlocks (posBlocks 0 ts).1 (posBlocks 0 ts).1 = .ok rb ∧ Parts code (presOf rb) := by
  obtain ⟨rb, hr, -⟩ := Out.bind_eq_ok.1 he
  obtain ⟨c1, c2, c3⟩ := emitT_char hr
  rw [he] at c1
  cases c1
  refine ⟨rb, hr, rfl, c2, fun q hq => ?_⟩
  obtain ⟨b, hb, t, ht, p, hp, ⟨h1, h2⟩ | ⟨h1, tp, h2, h3⟩⟩ := pres_from hr hq
  · obtain ⟨a1, a2⟩ := hl b hb t ht
    rw [h2]
    exact .inl (tr_stays a1 h1 a2 p hp)
  · obtain ⟨a1, a2⟩ := hl b hb t ht
    obtain ⟨l1, l2⟩ := tr_leaps h1 a2 p hp
    obtain ⟨i, l3, l4⟩ := l2 (jumpOff tp q.1)
    obtain ⟨A, b', B, s1, s2⟩ := bbPos_split h2
    obtain ⟨Q1, Q2, s3, s4, -⟩ := pres_split hr s1
    have hL : (slotsOf ((presOf rb).map Prod.snd)).length = total (Q1.map Prod.snd) + total (Q2.map Prod.snd) := by
      rw [slotsOf_length, s3]; simp
    obtain ⟨k, k1, k2, -⟩ := at_slots _ 0 c2 q hq
    have hk : q.1 < (slotsOf ((presOf rb).map Prod.snd)).length := by
      rw [slotsOf_length]
      have : 0 < width q.2 := by unfold width; split <;> omega
      omega
    refine .inr ⟨by rw [h3]; exact l1, i, _, tp, by rw [h3]; exact l3, l4, jumpOff_toInt (by omega) (by omega), by omega, fun s hs => ?_⟩
    rw [s3, List.map_append, slotsOf_append, List.getElem?_append_right (by rw [slotsOf_length]; omega), slotsOf_length, s4, ← s2, Nat.sub_self] at hs
    have hQ2 : ∀ r ∈ Q2, ∃ i, decode (headOf r.2) = some i := by
      intro r hrQ
      obtain ⟨b, hb, t, ht, p, hp, ⟨h1, h2⟩ | ⟨h1, tp, h2, h3⟩⟩ := pres_from hr (q := r) (by rw [s3]; simp [hrQ])
      · obtain ⟨a1, a2⟩ := hl b hb t ht
        rw [h2]
        rcases tr_stays a1 h1 a2 p hp with ⟨w1, i, w2, -⟩ | ⟨w1, w2⟩
        · exact ⟨i, by rw [headOf_narrow w1]; exact w2⟩
        · exact ⟨_, decode_wide w2⟩
      · obtain ⟨a1, a2⟩ := hl b hb t ht
        obtain ⟨l1, l2⟩ := tr_leaps h1 a2 p hp
        obtain ⟨i, l3, l4⟩ := l2 (jumpOff tp r.1)
        exact ⟨i, by rw [h3, headOf_narrow (by exact l1)]; exact l3⟩
    cases Q2 with
    | nil => simp at hs
    | cons r Q2 =>
      obtain ⟨i, hi⟩ := hQ2 r (by simp)
      have : s = headOf r.2 := by
        cases hit : r.2.it with
        | imm => simpa [slots_narrow hit] using hs.symm
        | imm64 =>
          obtain ⟨s2, e, -⟩ := slots_wide hit
          simpa [e] using hs.symm
      rw [this]
      exact code_of_decode hi

/-! ## Blocks of flattened instructions -/

theorem lowerIs_lowered {is : List FInsn} {r : List TInsn} (hw : ∀ i ∈ is, Away i) (h : lowerIs is = .ok r) :
    ∀ t ∈ r, Away t.insn ∧ trInsn t.insn = .ok t.tr := by
  induction is generalizing r with
  | nil => cases h; simp
  | cons i is ih =>
    simp only [lowerIs] at h
    obtain ⟨a, h1, h⟩ := Out.bind_eq_ok.1 h
    obtain ⟨b, h2, h⟩ := Out.bind_eq_ok.1 h
    cases h
    intro t ht
    rcases List.mem_append.1 ht with ht | ht
    · simp only [lowerI] at h1
      obtain ⟨js, h3, h1⟩ := Out.bind_eq_ok.1 h1
      refine ⟨norm_away (hw i (by simp)) h3 _ ?_, trInsns_each h1 t ht⟩
      rw [← (trInsns_mapCat h1).2]
      exact List.mem_map.2 ⟨t, ht, rfl⟩
    · exact ih (fun j hj => hw j (List.mem_cons_of_mem _ hj)) h2 t ht

theorem lowerBlocks_lowered {bs : List FBlock} {ts : List TBlock} (hw : ∀ b ∈ bs, ∀ i ∈ b.insns, Away i) (h : lowerBlocks bs = .ok ts) : Lowered ts := by
  induction bs generalizing ts with
  | nil => cases h; intro b hb; cases hb
  | cons b bs ih =>
    simp only [lowerBlocks] at h
    obtain ⟨t, h1, h⟩ := Out.bind_eq_ok.1 h
    obtain ⟨u, h2, h⟩ := Out.bind_eq_ok.1 h
    cases h
    intro c hc
    rcases List.mem_cons.1 hc with rfl | hc
    · exact lowerIs_lowered (hw b (by simp)) (lowerBlock_eq h1).2
    · exact ih (fun c hc => hw c (List.mem_cons_of_mem _ hc)) h2 c hc

/-! ## The last block -/

/-- The last block ends with a return or an unconditional jump. -/
def Ends (bs : List FBlock) : Prop := ∃ A b xs i, bs = A ++ [b] ∧ b.insns = xs ++ [i] ∧ (i.op = .ret ∨ i.op = .ja)

theorem lowerIs_append {a b : List FInsn} {r : List TInsn} (h : lowerIs (a ++ b) = .ok r) : ∃ x y, lowerIs b = .ok y ∧ r = x ++ y := by
  induction a generalizing r with
  | nil => exact ⟨[], r, h, rfl⟩
  | cons i a ih =>
    simp only [List.cons_append, lowerIs] at h
    obtain ⟨p, h1, h⟩ := Out.bind_eq_ok.1 h
    obtain ⟨q, h2, h⟩ := Out.bind_eq_ok.1 h
    cases h
    obtain ⟨x, y, e1, rfl⟩ := ih h2
    exact ⟨p ++ x, y, e1, by simp⟩

theorem lower_end {i : FInsn} {r : List TInsn} (ho : i.op = .ret ∨ i.op = .ja) (h : lowerI i = .ok r) :
    ∃ x e, mcI r = x ++ [e] ∧ (e = exitP ∨ e = jaP) := by
  rcases ho with ho | ho
  · simp only [lowerI, normInsn, ho, normRet] at h
    obtain ⟨js, h1, h⟩ := Out.bind_eq_ok.1 h
    have hl : ∃ a j, js = a ++ [j] ∧ j.op = .ret := by
      split at h1
      · cases h1; exact ⟨[], i, rfl, ho⟩
      · obtain ⟨t0, -, h1⟩ := Out.bind_eq_ok.1 h1
        obtain ⟨u, -, h1⟩ := Out.bind_eq_ok.1 h1
        cases h1
        exact ⟨[_], _, rfl, rfl⟩
    obtain ⟨a, j, rfl, hj⟩ := hl
    obtain ⟨x, y, -, e2, rfl⟩ := trInsns_append.1 h
    simp [trInsns, trInsn, hj] at e2
    subst e2
    exact ⟨mcI x, exitP, by simp [mcI], .inl rfl⟩
  · rw [lowerI_ja ho h]
    exact ⟨[], jaP, by simp [mcI], .inr rfl⟩

theorem lowerBlocks_end {bs : List FBlock} {ts : List TBlock} (hE : Ends bs) (h : lowerBlocks bs = .ok ts) :
    ∃ T tl x e, ts = T ++ [tl] ∧ mcI tl.body = x ++ [e] ∧ (e = exitP ∨ e = jaP) := by
  obtain ⟨A, b, xs, i, h1, h2, h3⟩ := hE
  obtain ⟨TA, t, TB, e1, -, e2, e3⟩ := lowerBlocks_split h1 h
  cases e3
  have h4 := (lowerBlock_eq e2).2
  rw [h2] at h4
  obtain ⟨x, y, h5, h6⟩ := lowerIs_append h4
  simp only [lowerIs] at h5
  obtain ⟨p, h7, h5⟩ := Out.bind_eq_ok.1 h5
  cases h5
  obtain ⟨z, e, h8, h9⟩ := lower_end h3 h7
  refine ⟨TA, t, mcI x ++ z, e, e1, ?_, h9⟩
  rw [h6]
  simp only [List.append_nil]
  rw [show mcI (x ++ p) = mcI x ++ mcI p by simp [mcI], h8, List.append_assoc]

/-- Where the jumps go. -/
theorem leap_inside {ts T : List TBlock} {tl : TBlock} {x : List Pre} {code : List Slot} {rb : List PBlock} (hl : Lowered ts)
    (hr : relocBlocks (posBlocks 0 ts).1 (posBlocks 0 ts).1 = .ok rb) (hP : Parts code (presOf rb)) (hlen : code.length ≤ 32768)
    (hT : ts = T ++ [tl]) {m : Nat} (hL : code.length = m + 1) (hto : m = total (mc T ++ x)) :
    ∀ q ∈ presOf rb, ∀ i off, decode (headOf q.2) = some i → jumpOffset i = some off → (q.1 : Int) + 1 + off.toInt < code.length := by
  intro q hq i off hd ho
  obtain ⟨b, hb, t, ht, p, hp, ⟨h1, h2⟩ | ⟨h1, tp, h2, h3⟩⟩ := pres_from hr hq
  · obtain ⟨a1, a2⟩ := hl b hb t ht
    rw [h2] at hd
    rcases tr_stays a1 h1 a2 p hp with ⟨w1, j, w2, w3, -⟩ | ⟨w1, w2⟩
    · rw [headOf_narrow w1, w2] at hd; cases hd
      rw [w3] at ho; cases ho
    · rw [decode_wide w2] at hd; cases hd; cases ho
  · obtain ⟨a1, a2⟩ := hl b hb t ht
    obtain ⟨l1, l2⟩ := tr_leaps h1 a2 p hp
    obtain ⟨j, l3, l4⟩ := l2 (jumpOff tp q.1)
    rw [h3, headOf_narrow (by exact l1), l3] at hd
    cases hd
    rw [l4] at ho; cases ho
    obtain ⟨A, b', B, s1, s2⟩ := bbPos_split h2
    have hA : ∃ Y, T = A ++ Y := by
      rcases List.eq_nil_or_concat (b' :: B) with e' | ⟨Y, y, e'⟩
      · cases e'
      · rw [hT, e', List.concat_eq_append, ← List.append_assoc] at s1
        exact ⟨Y, (List.append_inj' s1 rfl).1⟩
    obtain ⟨Y, rfl⟩ := hA
    have hlt : tp < code.length := by
      rw [hL, hto, s2]
      have : mc (A ++ Y) = mc A ++ mc Y := by simp [mc]
      rw [this]; simp only [total_append]; omega
    obtain ⟨k, k1, k2, -⟩ := at_slots _ 0 hP.contig q hq
    have hk : q.1 < code.length := by
      rw [hP.code_eq, slotsOf_length]
      have : 0 < width q.2 := by unfold width; split <;> omega
      omega
    rw [jumpOff_toInt (by omega) (by omega)]
    omega
theorem flowI_cases {p q : Int} {i : Instr} (h : q ∈ flowI p (some i)) :
    (∃ off, i = .ja off ∧ q = p + 1 + off.toInt) ∨ (∃ off, jumpOffset i = some off ∧ q = p + 1 + off.toInt) ∨
      ((∀ off, i ≠ .ja off) ∧ i ≠ .exit ∧ q = p + 1) := by
  cases i with
  | ja off => exact .inl ⟨off, rfl, List.mem_singleton.1 h⟩
  | jcc w c d s off =>
    rcases List.mem_cons.1 h with h | h
    · exact .inr (.inl ⟨off, rfl, h⟩)
    · exact .inr (.inr ⟨by simp, by simp, List.mem_singleton.1 h⟩)
  | exit => cases h
  | _ => exact .inr (.inr ⟨by simp, by simp, List.mem_singleton.1 h⟩)

/-- Control stays inside when the last machine instruction is an exit or a jump. -/
theorem Parts.closed (hP : Parts code qs) {Q : List PPre} {q0 : PPre} (hQ : qs = Q ++ [q0]) (hit0 : q0.2.it = .imm)
    (dec0 : ∃ i, decode (headOf q0.2) = some i ∧ (i = .exit ∨ ∃ off, i = .ja off)) (front : ∀ q ∈ Q, q.1 + width q.2 < code.length)
    (leap : ∀ q ∈ qs, ∀ i off, decode (headOf q.2) = some i → jumpOffset i = some off → (q.1 : Int) + 1 + off.toInt < code.length) :
    ∀ p < code.length, ∀ q ∈ flow code p, q < code.length := by
  intro p hp q hq
  unfold flow at hq
  obtain ⟨s, hs⟩ : ∃ s, code[p]? = some s := ⟨_, List.getElem?_eq_getElem hp⟩
  rw [hs] at hq
  dsimp only at hq
  obtain ⟨r, hr', ⟨e1, e2⟩ | ⟨e1, e2, e3⟩⟩ := hP.at hs
  · rw [e2] at hq
    obtain ⟨i, d1, d2, -⟩ := hP.head hr'
    rw [d1] at hq
    have lp := leap r hr' i
    rw [e1] at lp
    have next : (∀ off, i ≠ .ja off) → i ≠ .exit → p + 1 < code.length := by
      intro n1 n2
      rw [hQ] at hr'
      rcases List.mem_append.1 hr' with hm | hm
      · have := front r hm
        have : 0 < width r.2 := by unfold width; split <;> omega
        omega
      · rw [List.mem_singleton.1 hm] at d1
        obtain ⟨i', d3, d4⟩ := dec0
        rw [d1] at d3; cases d3
        rcases d4 with rfl | ⟨off, rfl⟩
        · exact absurd rfl n2
        · exact absurd rfl (n1 off)
    rcases flowI_cases hq with ⟨off, rfl, rfl⟩ | ⟨off, h5, rfl⟩ | ⟨n1, n2, rfl⟩
    · exact lp _ d1 rfl
    · exact lp _ d1 h5
    · have := next n1 n2
      omega
  · rw [decode_zero e3] at hq
    have : q = p + 1 := List.mem_singleton.1 hq
    rw [hQ] at hr'
    rcases List.mem_append.1 hr' with hm | hm
    · have := front r hm
      have : width r.2 = 2 := by unfold width; rw [e2]
      omega
    · rw [List.mem_singleton.1 hm, hit0] at e2
      cases e2

/-- Control does not run off the end. -/
theorem parts_closed {ts T : List TBlock} {tl : TBlock} {x : List Pre} {e : Pre} {code : List Slot} {rb : List PBlock} (hl : Lowered ts)
    (hr : relocBlocks (posBlocks 0 ts).1 (posBlocks 0 ts).1 = .ok rb) (hP : Parts code (presOf rb)) (hlen : code.length ≤ 32768)
    (hT : ts = T ++ [tl]) (hx : mcI tl.body = x ++ [e]) (he : e = exitP ∨ e = jaP) : Closed code := by
  have hmc : mc ts = (mc T ++ x) ++ [e] := by rw [hT]; simp [mc, hx]
  -- the last machine instruction
  obtain ⟨Q, q0, hQ, hq0, hto⟩ : ∃ Q q0, presOf rb = Q ++ [q0] ∧ SameButOff e q0.2 ∧ total (Q.map Prod.snd) = total (mc T ++ x) := by
    obtain ⟨hz, -⟩ := relocBlocks_same hr
    have e' := (posBlocks_spec ts 0).2.1
    rw [hmc] at e'
    obtain ⟨X1, X2, e1, e2, e3⟩ := List.map_eq_append_iff.1 e'
    rw [e1] at hz
    obtain ⟨Q1, Q2, f1, f2, f3⟩ := hz.split
    match X2, e3 with
    | [a], e3 =>
      cases f3 with
      | cons g1 g2 =>
        cases g2
        refine ⟨Q1, _, f1, ?_, by rw [total_zip f2, e2]⟩
        have : a.2 = e := by simpa using e3
        rw [← this]; exact g1.2
  have hw0 : width q0.2 = 1 := by rw [hq0.width]; rcases he with rfl | rfl <;> rfl
  have hit0 : q0.2.it = .imm := by rw [hq0]; rcases he with rfl | rfl <;> rfl
  have hop0 : q0.2.opcode = 0x95 ∨ q0.2.opcode = 0x05 := by rw [hq0]; rcases he with rfl | rfl <;> simp [exitP, jaP]
  have hL : code.length = total (Q.map Prod.snd) + 1 := by
    rw [hP.code_eq, slotsOf_length, hQ]; simp [hw0]
  have hcont := hP.contig
  rw [hQ, contig_append] at hcont
  -- all others are in front of it
  have front : ∀ q ∈ Q, q.1 + width q.2 < code.length := by
    intro q hq
    obtain ⟨k, k1, k2, -⟩ := at_slots Q 0 hcont.1 q hq
    omega
  have dec0 : ∃ i, decode (headOf q0.2) = some i ∧ (i = .exit ∨ ∃ off, i = .ja off) := by
    obtain ⟨i, e1, -⟩ := hP.head (q := q0) (by rw [hQ]; simp)
    rcases he with rfl | rfl
    · refine ⟨.exit, ?_, .inl rfl⟩
      rw [headOf_narrow hit0, hq0]; simp [slotOf, exitP, decode]
    · refine ⟨.ja q0.2.off, ?_, .inr ⟨_, rfl⟩⟩
      rw [headOf_narrow hit0, hq0]; simp [slotOf, jaP, decode]
  refine ⟨fun e' => ?_, hP.closed hQ hit0 dec0 front (leap_inside hl hr hP hlen hT hL hto)⟩
  rw [e'] at hL
  simp at hL

end Verif.Compile
