import Verif.Emit.Norm
/-!
# Model of the replacement of builtin constants (core/ir_cg_norm.c:1084-1149)

A constant operand can be tagged with `builtin_const`; between `normalize` and `translate` its value becomes the number of instructions of its block.

Simplifications
* `P b` is `bb->preds` and `C b` says whether `bb->flag` has `IR_BB_HAS_COUNTER`; predecessors outside of the layout are not modelled (`look` is undefined for them).
* The loop of `bb_insn_critical_cnt` has no bound in the code.  Here it is cut off after as many steps as there are blocks, with the outcome `ub`: after that a block
  has been met twice, and as every block on the way has one predecessor the loop goes on for ever.
-/
namespace Verif.Emit
open Verif Verif.Norm Verif.Bpf

/-- Which instructions `bb_insn_cnt` counts, core/ir_cg_norm.c:1089-1094 -/
def counted (i : FInsn) : Bool := !(i.op == .alloc || i.op == .allocarray)

/-- `bb_insn_cnt`, core/ir_cg_norm.c:1084-1097; a `u32` -/
def insnCnt (b : FBlock) : BitVec 32 := BitVec.ofNat 32 (b.insns.countP counted)

/-- The block that a pointer leads to. -/
def look (bs : List FBlock) (id : Nat) : Out FBlock :=
  match bs.find? (fun b => b.id == id) with
  | some b => .ok b
  | none => .ub

/-- The loop of `bb_insn_critical_cnt`, core/ir_cg_norm.c:1102-1113 -/
def critLoop (bs : List FBlock) (P : Nat → List Nat) (C : Nat → Bool) : Nat → Nat → BitVec 32 → Out (BitVec 32)
  | 0, _, _ => .ub
  | n + 1, b, cnt =>
    match P b with
    | [p] =>
      if C p then .ok cnt
      else do
        let x ← look bs p
        critLoop bs P C n p (cnt + insnCnt x)
    | _ => .ok cnt

/-- `bb_insn_critical_cnt`, core/ir_cg_norm.c:1099-1115 -/
def criticalCnt (bs : List FBlock) (P : Nat → List Nat) (C : Nat → Bool) (b : FBlock) : Out (BitVec 32) :=
  critLoop bs P C (bs.length + 1) b.id (insnCnt b)

/-- One operand of an instruction of the block `b`, core/ir_cg_norm.c:1131-1143; the `u32` goes into the `s64` field `constant_d`. -/
def fillVal (bs : List FBlock) (P : Nat → List Nat) (C : Nat → Bool) (b : FBlock) : FVal → Out FVal
  | .const .plain _ t .bbInsnCnt => .ok (.const .plain ((insnCnt b).setWidth 64) t .bbInsnCnt)
  | .const .plain _ t .bbInsnCriticalCnt => do
    let n ← criticalCnt bs P C b
    Out.ok (.const .plain (n.setWidth 64) t .bbInsnCriticalCnt)
  | v => .ok v

/-- An operand that may not be there. -/
def fillIf (q : Bool) (bs : List FBlock) (P : Nat → List Nat) (C : Nat → Bool) (b : FBlock) (v : FVal) : Out FVal :=
  if q then fillVal bs P C b v else .ok v

/-- The operands of one instruction (`bpf_ir_get_operands`, core/ir_insn.c:134-158), core/ir_cg_norm.c:1127-1145 -/
def fillInsn (bs : List FBlock) (P : Nat → List Nat) (C : Nat → Bool) (b : FBlock) (i : FInsn) : Out FInsn := do
  let v0 ← fillIf (i.valueNum ≥ 1) bs P C b i.v0
  let v1 ← fillIf (i.valueNum ≥ 2) bs P C b i.v1
  let a ← fillIf (i.op = .loadraw ∨ i.op = .storeraw) bs P C b i.addr
  Out.ok { i with v0 := v0, v1 := v1, addr := a }

def fillInsns (bs : List FBlock) (P : Nat → List Nat) (C : Nat → Bool) (b : FBlock) : List FInsn → Out (List FInsn)
  | [] => .ok []
  | i :: is => do
    let j ← fillInsn bs P C b i
    let js ← fillInsns bs P C b is
    Out.ok (j :: js)

/-- `replace_builtin_const`, core/ir_cg_norm.c:1117-1149.  (The counts do not change on the way.) -/
def fillBlocks (bs : List FBlock) (P : Nat → List Nat) (C : Nat → Bool) : List FBlock → Out (List FBlock)
  | [] => .ok []
  | b :: r => do
    let is ← fillInsns bs P C b b.insns
    let r ← fillBlocks bs P C r
    Out.ok ({ b with insns := is } :: r)

/-- `normalize`, core/ir_cg_norm.c:598-651, on all blocks -/
def normBlocks : List FBlock → Out (List FBlock)
  | [] => .ok []
  | b :: bs => do
    let n ← normBlock b
    let r ← normBlocks bs
    Out.ok (n :: r)

/-- `translate`, core/ir_cg_norm.c:1170-1222, on all blocks -/
def trBlocks : List FBlock → Out (List TBlock)
  | [] => .ok []
  | b :: bs => do
    let t ← trInsns b.insns
    let r ← trBlocks bs
    Out.ok (⟨b.id, t⟩ :: r)

/-- `bpf_ir_cg_norm` from `normalize` on, with `replace_builtin_const`, core/ir_cg_norm.c:1356-1374 -/
def emitB (P : Nat → List Nat) (C : Nat → Bool) (bs : List FBlock) : Out (List Slot) := do
  let ns ← normBlocks bs
  let rs ← fillBlocks ns P C ns
  let ts ← trBlocks rs
  checkTotal ts
  emitT ts

/-! ## Without builtin constants nothing changes -/

/-- Not a builtin constant. -/
def Bare (v : FVal) : Prop := ∀ k c t b, v = .const k c t b → b = .none

/-- No operand is a builtin constant. -/
structure BareI (i : FInsn) : Prop where
  v0 : Bare i.v0
  v1 : Bare i.v1
  addr : Bare i.addr

theorem Bare.pos {p : VrPos} : Bare (.pos p) := by intro k c t b e; cases e

theorem Bare.other : Bare .other := by intro k c t b e; cases e

theorem Bare.const32 {v : BitVec 32} : Bare (Norm.const32 v) := by intro k c t b e; cases e; rfl

theorem Bare.sp : Bare stackPtr := .pos

theorem fillVal_bare {bs : List FBlock} {P : Nat → List Nat} {C : Nat → Bool} {b : FBlock} {v : FVal} (h : Bare v) : fillVal bs P C b v = .ok v := by
  cases v with
  | const k c t u =>
    obtain rfl := h k c t u rfl
    cases k <;> rfl
  | pos p => rfl
  | other => rfl

theorem fillInsn_bare {bs : List FBlock} {P : Nat → List Nat} {C : Nat → Bool} {b : FBlock} {i : FInsn} (h : BareI i) : fillInsn bs P C b i = .ok i := by
  unfold fillInsn
  have e : ∀ (q : Bool) (v : FVal), Bare v → fillIf q bs P C b v = .ok v := fun q v hv => by
    unfold fillIf
    split
    · exact fillVal_bare hv
    · rfl
  rw [e _ _ h.v0, Out.ok_bind, e _ _ h.v1, Out.ok_bind, e _ _ h.addr, Out.ok_bind]

theorem fillInsns_bare {bs : List FBlock} {P : Nat → List Nat} {C : Nat → Bool} {b : FBlock} {is : List FInsn} (h : ∀ i ∈ is, BareI i) :
    fillInsns bs P C b is = .ok is := by
  induction is with
  | nil => rfl
  | cons i is ih =>
    rw [fillInsns, fillInsn_bare (h i (by simp)), Out.ok_bind, ih fun j hj => h j (List.mem_cons_of_mem _ hj), Out.ok_bind]

theorem fillBlocks_bare {bs : List FBlock} {P : Nat → List Nat} {C : Nat → Bool} {r : List FBlock} (h : ∀ b ∈ r, ∀ i ∈ b.insns, BareI i) :
    fillBlocks bs P C r = .ok r := by
  induction r with
  | nil => rfl
  | cons b r ih =>
    rw [fillBlocks, fillInsns_bare (h b (by simp)), Out.ok_bind, ih fun c hc => h c (List.mem_cons_of_mem _ hc), Out.ok_bind]

/-! ## Normalization makes no builtin constants -/

theorem mkAssign_bare {d : VrPos} {v : FVal} (h : Bare v) : BareI (mkAssign d v) := ⟨h, .other, .other⟩

theorem normAssign_bare {i : FInsn} {r : Option FInsn} (hi : BareI i) (h : normAssign i = .ok r) : ∀ j ∈ r.toList, BareI j := by
  simp only [normAssign] at h
  obtain ⟨t0, h0, h⟩ := Out.bind_eq_ok.1 h
  split at h
  · obtain ⟨u, h1, h⟩ := Out.bind_eq_ok.1 h
    simp at h; subst h
    simp only [Option.toList, List.mem_singleton, forall_eq]
    exact ⟨hi.v0, hi.v1, .sp⟩
  · split at h
    · simp at h; subst h; simp
    · simp at h; subst h
      simp only [Option.toList, List.mem_singleton, forall_eq]
      split
      · split
        · exact ⟨hi.v0, hi.v1, .sp⟩
        · exact ⟨hi.v0, hi.v1, hi.addr⟩
      · split
        · exact ⟨hi.v0, hi.v1, .sp⟩
        · exact hi

theorem normLoadConst_bare {v : FVal} {d : VrPos} (h : Bare v) : BareI (normLoadConst v d) := by
  unfold normLoadConst
  split
  · exact ⟨h, .other, .other⟩
  · exact ⟨.other, .other, .other⟩

theorem normAlu_bare {i : FInsn} {r : List FInsn} (hi : BareI i) (h : normAlu i = .ok r) : ∀ j ∈ r, BareI j := by
  simp only [normAlu] at h
  obtain ⟨t0, h0, h⟩ := Out.bind_eq_ok.1 h
  obtain ⟨t1, h1, h⟩ := Out.bind_eq_ok.1 h
  obtain ⟨u, h2, h⟩ := Out.bind_eq_ok.1 h
  obtain ⟨⟨pre, j, t0', t1'⟩, h3, h⟩ := Out.bind_eq_ok.1 h
  simp only at h
  have hp : (∀ k ∈ pre, BareI k) ∧ BareI j := by
    split at h3
    · split at h3
      · simp at h3; obtain ⟨rfl, rfl, -⟩ := h3; exact ⟨by simp, hi.v1, hi.v0, hi.addr⟩
      · split at h3
        · simp at h3; obtain ⟨rfl, rfl, -⟩ := h3
          simp only [List.mem_singleton, forall_eq]
          exact ⟨⟨hi.v1, .other, .other⟩, hi.v1, hi.v0, hi.addr⟩
        · simp at h3
    · simp at h3; obtain ⟨rfl, rfl, -⟩ := h3; exact ⟨by simp, hi⟩
  obtain ⟨u1, h4, h⟩ := Out.bind_eq_ok.1 h
  obtain ⟨u2, h5, h⟩ := Out.bind_eq_ok.1 h
  have hl : BareI { j with v0 := .pos j.dst } := ⟨.pos, hp.2.v1, hp.2.addr⟩
  split at h
  · obtain ⟨n, h6, h⟩ := Out.bind_eq_ok.1 h
    simp at h; subst h
    have := normAssign_bare (⟨hp.2.v0, .other, .other⟩ : BareI { mkAssign j.dst j.v0 with vrType := .t64 }) h6
    intro k hk
    simp only [List.mem_append, List.mem_singleton] at hk
    rcases hk with hk | hk | rfl
    · exact hp.1 k hk
    · exact this k (by simpa using hk)
    · exact hl
  · split at h
    · split at h <;> simp at h <;> subst h <;> intro k hk <;> simp only [List.mem_append, List.mem_cons, List.mem_singleton, List.not_mem_nil, or_false] at hk
      · rcases hk with hk | rfl | rfl
        · exact hp.1 k hk
        · exact mkAssign_bare hp.2.v0
        · exact hl
      · rcases hk with hk | rfl
        · exact hp.1 k hk
        · exact hp.2
    · split at h
      · simp at h; subst h
        intro k hk
        simp only [List.mem_append, List.mem_cons, List.not_mem_nil, or_false] at hk
        rcases hk with hk | rfl | rfl
        · exact hp.1 k hk
        · exact normLoadConst_bare hp.2.v0
        · exact hl
      · simp at h

theorem normCondJmp_bare {i : FInsn} {r : Option FInsn} (hi : BareI i) (h : normCondJmp i = .ok r) : ∀ j ∈ r.toList, BareI j := by
  simp only [normCondJmp] at h
  obtain ⟨t0, h0, h⟩ := Out.bind_eq_ok.1 h
  obtain ⟨t1, h1, h⟩ := Out.bind_eq_ok.1 h
  split at h
  · split at h
    · split at h
      · split at h <;> simp at h <;> subst h
        · simp only [Option.toList, List.mem_singleton, forall_eq]
          exact ⟨hi.v0, hi.v1, hi.addr⟩
        · simp
      · simp at h
    · split at h
      · simp at h; subst h
        simp only [Option.toList, List.mem_singleton, forall_eq]
        exact ⟨hi.v1, hi.v0, hi.addr⟩
      · simp at h
  · simp at h; subst h
    simpa using hi

theorem normInsn_bare {i : FInsn} {r : List FInsn} (hi : BareI i) (h : normInsn i = .ok r) : ∀ j ∈ r, BareI j := by
  have hb : ∀ h0 : normInsn i = normAlu i, ∀ j ∈ r, BareI j := fun h0 => normAlu_bare hi (h0 ▸ h)
  cases ho : i.op
  case alloc | allocarray | loadimm | call | ja => simp [normInsn, ho] at h; subst h; simpa using hi
  case jeq | jgt | jge | jlt | jle | jne | jsge | jsle | jsgt | jslt =>
    simp only [normInsn, ho, Op.binAlu, Op.condJmp, Bool.false_eq_true, if_false, if_true] at h
    obtain ⟨t0, h0, h⟩ := Out.bind_eq_ok.1 h
    simp at h; subst h
    exact normCondJmp_bare hi h0
  case add | sub | mul | div | or | and | lsh | arsh | rsh | mod | xor =>
    exact hb (by simp [normInsn, ho, Op.binAlu])
  case throw | phi | reg | funarg | ecall => simp [normInsn, ho, Op.binAlu, Op.condJmp] at h
  case getelemptr =>
    simp only [normInsn, ho, normGetelemptr] at h
    obtain ⟨t0, h0, h⟩ := Out.bind_eq_ok.1 h
    obtain ⟨t1, h1, h⟩ := Out.bind_eq_ok.1 h
    obtain ⟨u, h2, h⟩ := Out.bind_eq_ok.1 h
    obtain ⟨u', h3, h⟩ := Out.bind_eq_ok.1 h
    split at h
    · obtain ⟨u'', h3, h⟩ := Out.bind_eq_ok.1 h
      refine normAlu_bare ?_ h
      exact ⟨.sp, .const32, hi.addr⟩
    · split at h
      · split at h <;> simp at h <;> subst h <;> intro k hk <;> simp only [List.mem_cons, List.not_mem_nil, or_false] at hk
        · rcases hk with rfl | rfl
          · exact ⟨.pos, .sp, .other⟩
          · exact ⟨.pos, .const32, hi.addr⟩
        · rcases hk with rfl | rfl | rfl
          · exact mkAssign_bare hi.v0
          · exact ⟨.pos, .sp, .other⟩
          · exact ⟨.pos, .const32, hi.addr⟩
      · simp at h; subst h
        simp only [List.mem_singleton, forall_eq]
        exact ⟨hi.v0, hi.v1, hi.addr⟩
  case store =>
    simp only [normInsn, ho, normStore] at h
    split at h
    · obtain ⟨t0, h0, h⟩ := Out.bind_eq_ok.1 h
      simp at h; subst h
      refine normAssign_bare ?_ h0
      exact ⟨hi.v1, hi.v1, hi.addr⟩
    · simp at h
  case load =>
    simp only [normInsn, ho, normLoad] at h
    obtain ⟨t0, h0, h⟩ := Out.bind_eq_ok.1 h
    simp at h; subst h
    refine normAssign_bare ?_ h0
    exact ⟨hi.v0, hi.v1, hi.addr⟩
  case loadraw | storeraw =>
    simp only [normInsn, ho, normStackoff] at h
    obtain ⟨t0, h0, h⟩ := Out.bind_eq_ok.1 h
    split at h <;> simp at h <;> subst h <;> simp only [List.mem_singleton, forall_eq]
    · exact ⟨hi.v0, hi.v1, .sp⟩
    · exact hi
  case neg | htobe | htole =>
    simp only [normInsn, ho, normUnary] at h
    obtain ⟨t0, h0, h⟩ := Out.bind_eq_ok.1 h
    obtain ⟨u, h1, h⟩ := Out.bind_eq_ok.1 h
    split at h
    · split at h <;> simp at h <;> subst h <;> simp only [List.mem_singleton, forall_eq, List.mem_cons, List.not_mem_nil, or_false, forall_eq_or_imp]
      · exact ⟨mkAssign_bare hi.v0, .pos, hi.v1, hi.addr⟩
      · exact hi
    · split at h
      · simp at h
      · split at h <;> simp at h <;> subst h <;> simp only [List.mem_singleton, forall_eq, List.mem_cons, List.not_mem_nil, or_false, forall_eq_or_imp]
        · exact ⟨⟨hi.v0, .other, .other⟩, .pos, hi.v1, hi.addr⟩
        · exact hi
  case assign =>
    simp only [normInsn, ho] at h
    obtain ⟨t0, h0, h⟩ := Out.bind_eq_ok.1 h
    simp at h; subst h
    exact normAssign_bare hi h0
  case ret =>
    simp only [normInsn, ho, normRet] at h
    split at h
    · simp at h; subst h; simpa using hi
    · obtain ⟨t0, h0, h⟩ := Out.bind_eq_ok.1 h
      obtain ⟨u, h1, h⟩ := Out.bind_eq_ok.1 h
      simp at h; subst h
      simp only [List.mem_cons, List.not_mem_nil, or_false, forall_eq_or_imp, forall_eq]
      exact ⟨⟨hi.v0, .other, .other⟩, hi.v0, hi.v1, hi.addr⟩

theorem normAll_bare {is js : List FInsn} (hi : ∀ i ∈ is, BareI i) (h : mapCat normInsn is = .ok js) : ∀ j ∈ js, BareI j := by
  induction is generalizing js with
  | nil => cases h; simp
  | cons i is ih =>
    rw [mapCat] at h
    obtain ⟨x, h1, h⟩ := Out.bind_eq_ok.1 h
    obtain ⟨y, h2, h⟩ := Out.bind_eq_ok.1 h
    cases h
    intro j hj
    rcases List.mem_append.1 hj with hj | hj
    · exact normInsn_bare (hi i (by simp)) h1 j hj
    · exact ih (fun k hk => hi k (List.mem_cons_of_mem _ hk)) h2 j hj

/-- Normalizing all blocks and then translating all blocks gives what doing both block by block gives. -/
theorem lower_split {bs : List FBlock} {ts : List TBlock} : lowerBlocks bs = .ok ts ↔ ∃ ns, normBlocks bs = .ok ns ∧ trBlocks ns = .ok ts := by
  induction bs generalizing ts with
  | nil => exact ⟨fun h => ⟨[], rfl, by cases h; rfl⟩, fun ⟨ns, h1, h2⟩ => by cases h1; exact h2⟩
  | cons b bs ih =>
    constructor
    · intro h
      simp only [lowerBlocks, lowerBlock] at h
      obtain ⟨t, h1, h⟩ := Out.bind_eq_ok.1 h
      obtain ⟨us, h2, h⟩ := Out.bind_eq_ok.1 h
      obtain ⟨n, h3, h4⟩ := Out.bind_eq_ok.1 h1
      obtain ⟨v, h5, h6⟩ := Out.bind_eq_ok.1 h4
      cases h; cases h6
      obtain ⟨ns, k1, k2⟩ := ih.1 h2
      refine ⟨n :: ns, by rw [normBlocks, h3, Out.ok_bind, k1, Out.ok_bind], ?_⟩
      rw [trBlocks, h5, Out.ok_bind, k2, Out.ok_bind]
      unfold normBlock at h3
      obtain ⟨w, -, h3⟩ := Out.bind_eq_ok.1 h3
      cases h3; rfl
    · rintro ⟨ns, h1, h2⟩
      rw [normBlocks] at h1
      obtain ⟨n, h3, h1⟩ := Out.bind_eq_ok.1 h1
      obtain ⟨ms, h4, h1⟩ := Out.bind_eq_ok.1 h1
      cases h1
      rw [trBlocks] at h2
      obtain ⟨v, h5, h2⟩ := Out.bind_eq_ok.1 h2
      obtain ⟨us, h6, h2⟩ := Out.bind_eq_ok.1 h2
      cases h2
      have e : n.id = b.id := by
        unfold normBlock at h3
        obtain ⟨w, -, h3⟩ := Out.bind_eq_ok.1 h3
        cases h3; rfl
      rw [lowerBlocks, lowerBlock, h3, Out.ok_bind, h5, Out.ok_bind, Out.ok_bind, ih.2 ⟨ms, h4, h6⟩, Out.ok_bind, e]

theorem normBlocks_bare {bs ns : List FBlock} (hb : ∀ b ∈ bs, ∀ i ∈ b.insns, BareI i) (h : normBlocks bs = .ok ns) : ∀ b ∈ ns, ∀ i ∈ b.insns, BareI i := by
  induction bs generalizing ns with
  | nil => cases h; simp
  | cons b bs ih =>
    rw [normBlocks] at h
    obtain ⟨n, h1, h⟩ := Out.bind_eq_ok.1 h
    obtain ⟨ms, h2, h⟩ := Out.bind_eq_ok.1 h
    cases h
    intro c hc
    rcases List.mem_cons.1 hc with rfl | hc
    · unfold normBlock at h1
      obtain ⟨w, h3, h1⟩ := Out.bind_eq_ok.1 h1
      cases h1
      exact normAll_bare (hb b (by simp)) h3
    · exact ih (fun d hd => hb d (List.mem_cons_of_mem _ hd)) h2 c hc

/-- Without builtin constants, the code with and without their replacement is the same. -/
theorem emitB_iff {P : Nat → List Nat} {C : Nat → Bool} {bs : List FBlock} {code : List Slot} (hb : ∀ b ∈ bs, ∀ i ∈ b.insns, BareI i) :
    emitB P C bs = .ok code ↔ emit bs = .ok code := by
  unfold emitB emit
  constructor
  · intro h
    obtain ⟨ns, h1, h⟩ := Out.bind_eq_ok.1 h
    rw [fillBlocks_bare (normBlocks_bare hb h1), Out.ok_bind] at h
    obtain ⟨ts, h2, h⟩ := Out.bind_eq_ok.1 h
    rw [lower_split.2 ⟨ns, h1, h2⟩, Out.ok_bind]
    exact h
  · intro h
    obtain ⟨ts, h1, h⟩ := Out.bind_eq_ok.1 h
    obtain ⟨ns, h2, h3⟩ := lower_split.1 h1
    rw [h2, Out.ok_bind, fillBlocks_bare (normBlocks_bare hb h2), Out.ok_bind, h3, Out.ok_bind]
    exact h

end Verif.Emit
