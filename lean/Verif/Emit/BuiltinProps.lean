import Verif.Emit.Builtin
/-!
# C77: builtin constants become the number of instructions of their block
-/
namespace Verif.Emit
open Verif Verif.Norm Verif.Bpf

/-! ## What is said -/

/-- `i` with the value `n` for the builtin constant that it adds. -/
def withCount (n : BitVec 64) (i : FInsn) : FInsn :=
  match i.v1 with
  | .const .plain _ t .bbInsnCnt => { i with v1 := .const .plain n t .bbInsnCnt }
  | _ => i

/-- The block `b` with the number `n` (a `u32`) for its builtin constants. -/
def blockWith (n : Nat) (b : FBlock) : FBlock := { b with insns := b.insns.map (withCount ((BitVec.ofNat 32 n).setWidth 64)) }

/-- The machine instructions of a block (one that takes two slots is one). -/
def machine (t : TBlock) : Nat := (t.body.map (·.tr.length)).sum

/-- An instruction for which nothing is emitted although it is counted: an addition of zero, or a copy of a register to itself. -/
def spared (i : FInsn) : Bool :=
  match i.op, i.v0, i.v1 with
  | .add, _, .const _ c _ _ => c == 0
  | .assign, .pos p, _ => p.reg == i.dst.reg
  | _, _, _ => false

/-- The builtin constant is used as the counters of `insn_counter` use it (core/passes/insn_counter_pass.c:29-33, 51-55): added to something that is not a constant. -/
structure Counts (i : FInsn) : Prop where
  v0 : Bare i.v0
  addr : Bare i.addr
  v1 : Bare i.v1 ∨ (i.op = .add ∧ i.valueNum = 2 ∧ (∃ p, i.v0 = .pos p) ∧ ∃ c, i.v1 = .const .plain c .w32 .bbInsnCnt)

/-! ## Proofs -/

theorem withCount_bare {n : BitVec 64} {i : FInsn} (h : Bare i.v1) : withCount n i = i := by
  unfold withCount
  split
  · rename_i e
    exact absurd (h _ _ _ _ e) (by simp)
  · rfl

theorem withCount_add {n c : BitVec 64} {t : AluTy} {i : FInsn} (h : i.v1 = .const .plain c t .bbInsnCnt) : withCount n i = { i with v1 := .const .plain n t .bbInsnCnt } := by
  unfold withCount
  rw [h]

theorem withCount_op (n : BitVec 64) (i : FInsn) : (withCount n i).op = i.op := by
  unfold withCount; split <;> rfl

theorem BareI.counts {i : FInsn} (h : BareI i) : Counts i := ⟨h.v0, h.addr, .inl h.v1⟩

theorem map_bare {n : BitVec 64} {is : List FInsn} (h : ∀ i ∈ is, BareI i) : is.map (withCount n) = is := by
  induction is with
  | nil => rfl
  | cons i is ih => rw [List.map_cons, withCount_bare (h i (by simp)).v1, ih fun j hj => h j (List.mem_cons_of_mem _ hj)]

/-- A builtin constant that is added is still there after normalization, and its value plays no part. -/
theorem normAlu_count {i : FInsn} {r : List FInsn} {p : VrPos} {c : BitVec 64} (n : BitVec 64) (ho : i.op = .add) (hn : i.valueNum = 2) (h0 : i.v0 = .pos p) (ha : Bare i.addr)
    (h1 : i.v1 = .const .plain c .w32 .bbInsnCnt) (h : normAlu i = .ok r) :
    (∀ j ∈ r, Counts j) ∧ normAlu { i with v1 := .const .plain n .w32 .bbInsnCnt } = .ok (r.map (withCount n)) := by
  have hl : Counts { i with v0 := .pos i.dst } := ⟨.pos, ha, .inr ⟨ho, hn, ⟨_, rfl⟩, c, h1⟩⟩
  have hi : Counts i := ⟨by rw [h0]; exact .pos, ha, .inr ⟨ho, hn, ⟨_, h0⟩, c, h1⟩⟩
  have b0 : Bare (.pos p) := .pos
  cases hd : posType i.dst <;> simp [normAlu, vtypeAt, hn, h0, h1, vtype, hd, assert, FVal.ctype] at h ⊢
  cases hp : posType p <;> simp [hp] at h ⊢
  · split at h <;> simp at h <;> subst h
    · rename_i hq
      refine ⟨fun j hj => ?_, ?_⟩
      · rw [List.mem_singleton] at hj; subst hj
        exact hi
      · rw [if_pos hq, List.map_singleton, withCount_add h1, h0, hn]
    · rename_i hq
      refine ⟨fun j hj => ?_, ?_⟩
      · rcases List.mem_cons.1 hj with rfl | hj
        · exact (mkAssign_bare b0).counts
        · rw [List.mem_singleton] at hj; subst hj
          rw [h1, hn] at hl; exact hl
      · rw [if_neg hq, List.map_cons, List.map_singleton, withCount_bare (i := mkAssign _ _) .other, withCount_add (c := c) rfl]
  · obtain ⟨m, h2, h⟩ := Out.bind_eq_ok.1 h
    simp at h; subst h
    rw [h2]
    have hm := normAssign_bare (⟨b0, .other, .other⟩ : BareI { mkAssign i.dst (.pos p) with vrType := .t64 }) h2
    refine ⟨fun j hj => ?_, ?_⟩
    · rcases List.mem_append.1 hj with hj | hj
      · exact (hm j hj).counts
      · rw [List.mem_singleton] at hj; subst hj
        rw [h1, hn] at hl; exact hl
    · simp only [Out.ok_bind, List.map_append, List.map_singleton]
      rw [map_bare hm, withCount_add (c := c) rfl]

theorem normInsn_count {i : FInsn} {r : List FInsn} (n : BitVec 64) (hi : Counts i) (h : normInsn i = .ok r) :
    (∀ j ∈ r, Counts j) ∧ normInsn (withCount n i) = .ok (r.map (withCount n)) := by
  rcases hi.v1 with hb | ⟨ho, hn, ⟨p, h0⟩, c, h1⟩
  · have hr := normInsn_bare ⟨hi.v0, hb, hi.addr⟩ h
    exact ⟨fun j hj => (hr j hj).counts, by rw [withCount_bare hb, map_bare hr, h]⟩
  · have e : ∀ j : FInsn, j.op = .add → normInsn j = normAlu j := fun j hj => by simp [normInsn, hj, Op.binAlu]
    rw [e i ho] at h
    rw [withCount_add h1, show normInsn { i with v1 := .const .plain n .w32 .bbInsnCnt } = _ from e _ ho]
    exact normAlu_count n ho hn h0 hi.addr h1 h

theorem normAll_count {is js : List FInsn} (n : BitVec 64) (hi : ∀ i ∈ is, Counts i) (h : mapCat normInsn is = .ok js) :
    (∀ j ∈ js, Counts j) ∧ mapCat normInsn (is.map (withCount n)) = .ok (js.map (withCount n)) := by
  induction is generalizing js with
  | nil => cases h; exact ⟨by simp, rfl⟩
  | cons i is ih =>
    rw [mapCat] at h
    obtain ⟨x, h1, h⟩ := Out.bind_eq_ok.1 h
    obtain ⟨y, h2, h⟩ := Out.bind_eq_ok.1 h
    cases h
    obtain ⟨a1, a2⟩ := normInsn_count n (hi i (by simp)) h1
    obtain ⟨b1, b2⟩ := ih (fun k hk => hi k (List.mem_cons_of_mem _ hk)) h2
    refine ⟨fun j hj => (List.mem_append.1 hj).elim (a1 j) (b1 j), ?_⟩
    rw [List.map_cons, mapCat, a2, Out.ok_bind, b2, Out.ok_bind, List.map_append]

theorem fillInsn_count {bs : List FBlock} {P : Nat → List Nat} {C : Nat → Bool} {b : FBlock} {i : FInsn} (hi : Counts i) :
    fillInsn bs P C b i = .ok (withCount ((insnCnt b).setWidth 64) i) := by
  rcases hi.v1 with hb | ⟨ho, hn, ⟨p, h0⟩, c, h1⟩
  · rw [withCount_bare hb, fillInsn_bare ⟨hi.v0, hb, hi.addr⟩]
  · rw [withCount_add h1]
    unfold fillInsn fillIf
    rw [hn, h0, h1, ho]
    rfl

theorem fillInsns_count {bs : List FBlock} {P : Nat → List Nat} {C : Nat → Bool} {b : FBlock} {is : List FInsn} (hi : ∀ i ∈ is, Counts i) :
    fillInsns bs P C b is = .ok (is.map (withCount ((insnCnt b).setWidth 64))) := by
  induction is with
  | nil => rfl
  | cons i is ih =>
    rw [fillInsns, fillInsn_count (hi i (by simp)), Out.ok_bind, ih fun j hj => hi j (List.mem_cons_of_mem _ hj), Out.ok_bind, List.map_cons]

/-- The number that goes into a block: the instructions it has after normalization. -/
def cost (b : FBlock) : Nat :=
  match normBlock b with
  | .ok n => n.insns.countP counted
  | _ => 0

theorem emitB_split {P : Nat → List Nat} {C : Nat → Bool} {all bs ns rs : List FBlock} {ts : List TBlock} (hb : ∀ b ∈ bs, ∀ i ∈ b.insns, Counts i)
    (h1 : normBlocks bs = .ok ns) (h2 : fillBlocks all P C ns = .ok rs) (h3 : trBlocks rs = .ok ts) :
    lowerBlocks (bs.map fun b => blockWith (cost b) b) = .ok ts := by
  induction bs generalizing ns rs ts with
  | nil => cases h1; cases h2; exact h3
  | cons b bs ih =>
    rw [normBlocks] at h1
    obtain ⟨n, k1, h1⟩ := Out.bind_eq_ok.1 h1
    obtain ⟨ms, k2, h1⟩ := Out.bind_eq_ok.1 h1
    cases h1
    rw [fillBlocks] at h2
    obtain ⟨is, k3, h2⟩ := Out.bind_eq_ok.1 h2
    obtain ⟨qs, k4, h2⟩ := Out.bind_eq_ok.1 h2
    cases h2
    rw [trBlocks] at h3
    obtain ⟨t, k5, h3⟩ := Out.bind_eq_ok.1 h3
    obtain ⟨us, k6, h3⟩ := Out.bind_eq_ok.1 h3
    cases h3
    have hc : cost b = n.insns.countP counted := by unfold cost; rw [k1]
    unfold normBlock at k1
    obtain ⟨w, k7, k1⟩ := Out.bind_eq_ok.1 k1
    cases k1
    obtain ⟨c1, c2⟩ := normAll_count ((BitVec.ofNat 32 (cost b)).setWidth 64) (hb b (by simp)) k7
    rw [fillInsns_count c1] at k3
    cases k3
    rw [List.map_cons, lowerBlocks]
    have e : lowerBlock (blockWith (cost b) b) = .ok ⟨b.id, t⟩ := by
      unfold lowerBlock normBlock blockWith
      dsimp only
      rw [c2, Out.ok_bind, Out.ok_bind]
      dsimp only
      have e2 : insnCnt { b with insns := w } = BitVec.ofNat 32 (cost b) := by rw [hc]; rfl
      rw [e2] at k5
      dsimp only at k5
      rw [k5, Out.ok_bind]
    rw [e, Out.ok_bind, ih (fun d hd => hb d (List.mem_cons_of_mem _ hd)) k2 k4 k6, Out.ok_bind]

theorem trInsn_length {i : FInsn} {ps : List Pre} (h : trInsn i = .ok ps) : ps.length + (if spared i then 1 else 0) = if counted i then 1 else 0 := by
  have hb : trInsn i = trAlu i → i.op.binAlu = true → ps.length + (if spared i then 1 else 0) = 1 := fun h0 hbin => by
    rw [h0] at h
    simp only [trAlu] at h
    obtain ⟨t0, h1, g1⟩ := Out.bind_eq_ok.1 h
    obtain ⟨t1, h2, g2⟩ := Out.bind_eq_ok.1 g1
    obtain ⟨_, h3, g3⟩ := Out.bind_eq_ok.1 g2
    obtain ⟨_, h4, g4⟩ := Out.bind_eq_ok.1 g3
    obtain ⟨_, h5, g5⟩ := Out.bind_eq_ok.1 g4
    clear h g1 g2 g3 g4 h0
    have hs : i.op ≠ .assign := fun e => by rw [e] at hbin; cases hbin
    unfold vtypeAt at h2
    split at h2
    · cases hv : i.v1 with
      | other => rw [hv] at h2; cases h2
      | pos p =>
        have hsp : spared i = false := by unfold spared; rw [hv]; split <;> simp_all
        rw [hv] at h2
        have h2 : posType p = t1 := by simpa [vtype] using h2
        have : t1 ≠ .const := by
          subst h2
          unfold posType
          split
          · split <;> simp
          · simp
        rw [if_neg this] at g5
        split at g5
        · obtain ⟨c, h6, g6⟩ := Out.bind_eq_ok.1 g5
          cases g6
          simp [hsp]
        · cases g5
      | const k c t b =>
        rw [hv] at h2
        have h2 : VType.const = t1 := by simpa [vtype] using h2
        subst h2
        rw [if_neg (by simp), if_pos rfl] at g5
        by_cases e : i.op = .add ∧ i.v1.constOf = 0
        · rw [if_pos e] at g5
          cases g5
          have : spared i = true := by
            unfold spared
            rw [hv, e.1]
            have := e.2
            rw [hv] at this
            simpa [FVal.constOf] using this
          simp [this]
        · rw [if_neg e] at g5
          obtain ⟨c, h6, g6⟩ := Out.bind_eq_ok.1 g5
          cases g6
          have : spared i = false := by
            rw [hv] at e
            unfold spared; rw [hv]
            split <;> simp_all [FVal.constOf]
          simp [this]
    · cases h2
      simp at g5
  have one : spared i = false → counted i = true → (∃ p, ps = [p]) → ps.length + (if spared i then 1 else 0) = if counted i then 1 else 0 := by
    rintro e1 e2 ⟨p, rfl⟩; simp [e1, e2]
  cases ho : i.op
  case alloc | allocarray => simp [trInsn, ho] at h; subst h; simp [counted, spared, ho]
  case store | load | getelemptr | throw | phi | reg | funarg | ecall => simp [trInsn, ho, Op.binAlu, Op.condJmp] at h
  case add | sub | mul | div | or | and | lsh | arsh | rsh | mod | xor =>
    rw [hb (by simp [trInsn, ho, Op.binAlu]) (by rw [ho]; rfl)]
    simp [counted, ho]
  case ret | call | ja =>
    simp [trInsn, ho] at h; subst h
    exact one (by simp [spared, ho]) (by simp [counted, ho]) ⟨_, rfl⟩
  case loadraw =>
    simp only [trInsn, ho, trLoadraw] at h
    obtain ⟨_, h3, h⟩ := Out.bind_eq_ok.1 h
    obtain ⟨q, h4, h⟩ := Out.bind_eq_ok.1 h
    cases h
    exact one (by simp [spared, ho]) (by simp [counted, ho]) ⟨_, rfl⟩
  case loadimm =>
    simp only [trInsn, ho, trLoadimm] at h
    obtain ⟨_, h3, h⟩ := Out.bind_eq_ok.1 h
    obtain ⟨q, h4, h⟩ := Out.bind_eq_ok.1 h
    cases h
    exact one (by simp [spared, ho]) (by simp [counted, ho]) ⟨_, rfl⟩
  case storeraw =>
    simp only [trInsn, ho, trStoreraw] at h
    obtain ⟨_, h3, h⟩ := Out.bind_eq_ok.1 h
    refine one (by simp [spared, ho]) (by simp [counted, ho]) ?_
    split at h
    · obtain ⟨q, h4, h⟩ := Out.bind_eq_ok.1 h
      split at h
      · obtain ⟨q, h4, h⟩ := Out.bind_eq_ok.1 h
        cases h; exact ⟨_, rfl⟩
      · split at h
        · obtain ⟨q, h4, h⟩ := Out.bind_eq_ok.1 h
          cases h; exact ⟨_, rfl⟩
        · cases h
    · cases h
  case neg =>
    simp only [trInsn, ho, trNeg] at h
    obtain ⟨_, _, h⟩ := Out.bind_eq_ok.1 h
    obtain ⟨_, _, h⟩ := Out.bind_eq_ok.1 h
    obtain ⟨_, _, h⟩ := Out.bind_eq_ok.1 h
    cases h
    exact one (by simp [spared, ho]) (by simp [counted, ho]) ⟨_, rfl⟩
  case htobe | htole =>
    simp only [trInsn, ho, trEnd] at h
    obtain ⟨_, _, h⟩ := Out.bind_eq_ok.1 h
    obtain ⟨_, _, h⟩ := Out.bind_eq_ok.1 h
    obtain ⟨_, _, h⟩ := Out.bind_eq_ok.1 h
    obtain ⟨_, _, h⟩ := Out.bind_eq_ok.1 h
    cases h
    exact one (by simp [spared, ho]) (by simp [counted, ho]) ⟨_, rfl⟩
  case assign =>
    simp only [trInsn, ho, trAssign] at h
    obtain ⟨t0, h0, h⟩ := Out.bind_eq_ok.1 h
    have hc : counted i = true := by simp [counted, ho]
    unfold vtypeAt at h0
    cases hv : i.v0 with
    | other =>
      rw [hv] at h h0
      split at h0
      · cases h0
      · cases h0; simp at h
    | const k c t b =>
      have hs : spared i = false := by simp [spared, ho, hv]
      rw [hv] at h h0
      split at h0
      · cases h0
        split at h
        · cases h; exact one hs hc ⟨_, rfl⟩
        · simp at h
      · cases h0; simp at h
    | pos p =>
      have hs : spared i = (p.reg == i.dst.reg) := by simp [spared, ho, hv]
      rw [hv] at h h0
      split at h
      · rename_i e
        rw [e.2] at h0
        split at h0
        · simp only [vtype, posType] at h0
          split at h0
          · split at h0 <;> simp at h0
          · simp at h0
        · cases h0
      · split at h
        · by_cases e : i.dst.reg = (FVal.pos p).regOf
          · rw [if_pos e] at h
            cases h
            simp [hs, hc, e, FVal.regOf]
          · rw [if_neg e] at h
            cases h
            exact one (by rw [hs]; simpa using fun k => e (by rw [FVal.regOf]; exact k.symm)) hc ⟨_, rfl⟩
        · cases h
  case jeq | jgt | jge | jlt | jle | jne | jsge | jsle | jsgt | jslt =>
    simp only [trInsn, ho, Op.binAlu, Op.condJmp, Bool.false_eq_true, if_false, if_true, trCondJmp] at h
    obtain ⟨_, _, h⟩ := Out.bind_eq_ok.1 h
    obtain ⟨_, _, h⟩ := Out.bind_eq_ok.1 h
    obtain ⟨_, _, h⟩ := Out.bind_eq_ok.1 h
    refine one (by simp [spared, ho]) (by simp [counted, ho]) ?_
    split at h
    · split at h
      · obtain ⟨_, _, h⟩ := Out.bind_eq_ok.1 h
        cases h; exact ⟨_, rfl⟩
      · split at h
        · split at h
          · cases h
          · obtain ⟨_, _, h⟩ := Out.bind_eq_ok.1 h
            cases h; exact ⟨_, rfl⟩
        · cases h
    · cases h

theorem trInsns_length {is : List FInsn} {ts : List TInsn} (h : trInsns is = .ok ts) :
    (ts.map (·.tr.length)).sum + ts.countP (fun t => spared t.insn) = is.countP counted := by
  induction is generalizing ts with
  | nil => cases h; rfl
  | cons i is ih =>
    rw [trInsns] at h
    obtain ⟨p, h1, h⟩ := Out.bind_eq_ok.1 h
    obtain ⟨r, h2, h⟩ := Out.bind_eq_ok.1 h
    cases h
    have k1 := trInsn_length h1
    have k2 := ih h2
    rw [List.map_cons, List.sum_cons, List.countP_cons, List.countP_cons]
    dsimp only
    omega

theorem normBlocks_mem {bs ns : List FBlock} {b : FBlock} (h1 : normBlocks bs = .ok ns) (hbb : b ∈ bs) : ∃ n, normBlock b = .ok n := by
  induction bs generalizing ns with
  | nil => cases hbb
  | cons c bs ih =>
    rw [normBlocks] at h1
    obtain ⟨n, a1, h1⟩ := Out.bind_eq_ok.1 h1
    obtain ⟨ms, a2, h1⟩ := Out.bind_eq_ok.1 h1
    rcases List.mem_cons.1 hbb with rfl | hbb
    · exact ⟨n, a1⟩
    · exact ih a2 hbb

/-- **C77** (counts).  Emission with the replacement of builtin constants is emission of the blocks in which every builtin constant is the number `cost b` of its block `b`, and
this number is the number of machine instructions that the block `b` gets, plus the number of the instructions of the block for which nothing is emitted (`spared`).  In particular
no block gets more machine instructions than its constants say.  Missing: builtin constants in other places than those where `insn_counter` puts them (see
`C77_violated_wide`). -/
theorem C77_counts_partial {P : Nat → List Nat} {C : Nat → Bool} {bs : List FBlock} {code : List Slot} (hb : ∀ b ∈ bs, ∀ i ∈ b.insns, Counts i)
    (h : emitB P C bs = .ok code) :
    ∃ cost : FBlock → Nat, emit (bs.map fun b => blockWith (cost b) b) = .ok code ∧
      ∀ b ∈ bs, ∃ t, lowerBlock (blockWith (cost b) b) = .ok t ∧ cost b = machine t + t.body.countP (fun i => spared i.insn) := by
  unfold emitB at h
  obtain ⟨ns, h1, h⟩ := Out.bind_eq_ok.1 h
  obtain ⟨rs, h2, h⟩ := Out.bind_eq_ok.1 h
  obtain ⟨ts, h3, h⟩ := Out.bind_eq_ok.1 h
  have hl := emitB_split hb h1 h2 h3
  refine ⟨cost, by unfold emit; rw [hl, Out.ok_bind]; exact h, fun b hbb => ?_⟩
  obtain ⟨l, r, e⟩ := List.append_of_mem (List.mem_map_of_mem (f := fun b => blockWith (cost b) b) hbb)
  have hb' : ∃ t, lowerBlock (blockWith (cost b) b) = .ok t := by
    clear h1 h2 h3 h
    generalize bs.map (fun b => blockWith (cost b) b) = qs at *
    subst e
    induction l generalizing ts with
    | nil =>
      rw [List.nil_append, lowerBlocks] at hl
      obtain ⟨t, k, -⟩ := Out.bind_eq_ok.1 hl
      exact ⟨t, k⟩
    | cons x l ih =>
      rw [List.cons_append, lowerBlocks] at hl
      obtain ⟨t, -, hl⟩ := Out.bind_eq_ok.1 hl
      obtain ⟨us, k, -⟩ := Out.bind_eq_ok.1 hl
      exact ih us k
  obtain ⟨t, ht⟩ := hb'
  refine ⟨t, ht, ?_⟩
  unfold lowerBlock normBlock blockWith at ht
  dsimp only at ht
  obtain ⟨w, k1, ht⟩ := Out.bind_eq_ok.1 ht
  obtain ⟨v, k2, ht⟩ := Out.bind_eq_ok.1 ht
  cases ht
  obtain ⟨js, k3, k1⟩ := Out.bind_eq_ok.1 k1
  cases k1
  unfold machine
  dsimp only at k2 ⊢
  rw [trInsns_length k2]
  -- the number of instructions does not depend on the constants
  obtain ⟨n, hn⟩ := normBlocks_mem h1 hbb
  have hc : cost b = n.insns.countP counted := by unfold cost; rw [hn]
  unfold normBlock at hn
  obtain ⟨w, k7, hn⟩ := Out.bind_eq_ok.1 hn
  cases hn
  obtain ⟨-, c2⟩ := normAll_count ((BitVec.ofNat 32 (cost b)).setWidth 64) (hb b hbb) k7
  rw [c2] at k3
  cases k3
  rw [hc, List.countP_map]
  congr 1
  funext i
  simp only [Function.comp, counted, withCount_op]

/-- The chain of blocks whose instructions `bb_insn_critical_cnt` counts for the block `b`: `b`, and for as long as there is exactly one predecessor and that one has no counter of
its own, the predecessors. -/
inductive Chain (P : Nat → List Nat) (C : Nat → Bool) : Nat → List Nat → Prop
  | many (b : Nat) : (∀ p, P b ≠ [p]) → Chain P C b [b]
  | counter (b p : Nat) : P b = [p] → C p = true → Chain P C b [b]
  | step (b p : Nat) (l : List Nat) : P b = [p] → C p = false → Chain P C p l → Chain P C b (b :: l)

/-- A fixed chain for every block. -/
theorem Chain.unique {P : Nat → List Nat} {C : Nat → Bool} {b : Nat} {l l' : List Nat} (h : Chain P C b l) (h' : Chain P C b l') : l = l' := by
  induction h generalizing l' with
  | many b h =>
    cases h' with
    | many => rfl
    | counter _ p h1 => rfl
    | step _ p l h1 => exact absurd h1 (h p)
  | counter b p h1 h2 =>
    cases h' with
    | many => rfl
    | counter => rfl
    | step _ q l h3 h4 =>
      rw [h1] at h3; cases h3
      rw [h2] at h4; cases h4
  | step b p l h1 h2 h3 ih =>
    cases h' with
    | many _ h => exact absurd h1 (h p)
    | counter _ q h4 h5 =>
      rw [h1] at h4; cases h4
      rw [h2] at h5; cases h5
    | step _ q l' h4 h5 h6 =>
      rw [h1] at h4; cases h4
      rw [ih h6]

/-- A block comes once. -/
theorem Chain.nodup {P : Nat → List Nat} {C : Nat → Bool} {b : Nat} {l : List Nat} (h : Chain P C b l) : l.Nodup := by
  have sub : ∀ {b l}, Chain P C b l → ∀ c ∈ l, ∃ l', Chain P C c l' ∧ l'.length ≤ l.length := by
    intro b l h
    induction h with
    | many b h => intro c hc; cases List.mem_singleton.1 hc; exact ⟨_, .many _ h, Nat.le_refl _⟩
    | counter b p h1 h2 => intro c hc; cases List.mem_singleton.1 hc; exact ⟨_, .counter _ p h1 h2, Nat.le_refl _⟩
    | step b p l h1 h2 h3 ih =>
      intro c hc
      rcases List.mem_cons.1 hc with rfl | hc
      · exact ⟨_, .step _ p l h1 h2 h3, Nat.le_refl _⟩
      · obtain ⟨l', k1, k2⟩ := ih c hc
        exact ⟨l', k1, by rw [List.length_cons]; omega⟩
  induction h with
  | many b h => simp
  | counter b p h1 h2 => simp
  | step b p l h1 h2 h3 ih =>
    refine List.nodup_cons.2 ⟨fun hm => ?_, ih⟩
    obtain ⟨l', k1, k2⟩ := sub h3 b hm
    have := k1.unique (.step _ p l h1 h2 h3)
    rw [this, List.length_cons] at k2
    omega

theorem look_mem {bs : List FBlock} {id : Nat} (h : id ∈ bs.map (·.id)) : ∃ b ∈ bs, b.id = id ∧ look bs id = .ok b := by
  unfold look
  cases e : bs.find? (fun b => b.id == id) with
  | some b => exact ⟨b, List.mem_of_find?_eq_some e, by simpa using List.find?_some e, rfl⟩
  | none =>
    obtain ⟨b, hb, rfl⟩ := List.mem_map.1 h
    have := List.find?_eq_none.1 e b hb
    simp at this

/-- The number of instructions of the block with the name `id`. -/
def insnsIn (bs : List FBlock) (id : Nat) : Nat :=
  match bs.find? (fun b => b.id == id) with
  | some b => b.insns.countP counted
  | none => 0

theorem critLoop_chain {bs : List FBlock} {P : Nat → List Nat} {C : Nat → Bool} {b : Nat} {l : List Nat} (h : Chain P C b l) (hl : ∀ c ∈ l, c ∈ bs.map (·.id)) :
    ∀ (n : Nat) (cnt : BitVec 32), l.length ≤ n → critLoop bs P C n b cnt = .ok (cnt + BitVec.ofNat 32 ((l.tail.map (insnsIn bs)).sum)) := by
  induction h with
  | many b h =>
    intro n cnt hn
    obtain ⟨n, rfl⟩ : ∃ m, n = m + 1 := ⟨n - 1, by simp at hn; omega⟩
    rw [critLoop]
    split
    · rename_i p e; exact absurd e (h p)
    · simp
  | counter b p h1 h2 =>
    intro n cnt hn
    obtain ⟨n, rfl⟩ : ∃ m, n = m + 1 := ⟨n - 1, by simp at hn; omega⟩
    rw [critLoop, h1]
    simp [h2]
  | step b p l h1 h2 h3 ih =>
    intro n cnt hn
    rw [List.length_cons] at hn
    obtain ⟨n, rfl⟩ : ∃ m, n = m + 1 := ⟨n - 1, by omega⟩
    have hp : p ∈ l := by cases h3 <;> simp
    obtain ⟨x, hx, -, ex⟩ := look_mem (hl p (List.mem_cons_of_mem _ hp))
    have en : insnsIn bs p = x.insns.countP counted := by
      unfold look at ex
      unfold insnsIn
      split at ex
      · cases ex; rename_i e; rw [e]
      · cases ex
    rw [critLoop, h1]
    simp only [h2, Bool.false_eq_true, if_false]
    rw [ex, Out.ok_bind, ih (fun c hc => hl c (List.mem_cons_of_mem _ hc)) n _ (by omega), List.tail_cons]
    have el : l = p :: l.tail := by cases h3 <;> rfl
    conv => rhs; rw [el]
    rw [List.map_cons, List.sum_cons, en, BitVec.ofNat_add]
    unfold insnCnt
    rw [BitVec.add_assoc]

theorem same_block {bs : List FBlock} {b c : FBlock} (hn : (bs.map (·.id)).Nodup) (hb : b ∈ bs) (hc : c ∈ bs) (e : b.id = c.id) : b = c := by
  induction bs with
  | nil => cases hb
  | cons a bs ih =>
    obtain ⟨h1, h2⟩ := List.nodup_cons.1 hn
    rcases List.mem_cons.1 hb with e1 | hb' <;> rcases List.mem_cons.1 hc with e2 | hc'
    · rw [e1, e2]
    · exact absurd (List.mem_map.2 ⟨c, hc', by rw [← e, e1]⟩) h1
    · exact absurd (List.mem_map.2 ⟨b, hb', by rw [e, e2]⟩) h1
    · exact ih h2 hb' hc'

/-- **C77** (critical counts).  Where the predecessors of a block form a chain that ends, `bb_insn_critical_cnt` gives the number of the instructions of the blocks of the chain (as a `u32`).
Missing: chains that do not end (`C77_violated_critical`); this constant is not used by any pass. -/
theorem C77_critical_partial {bs : List FBlock} {P : Nat → List Nat} {C : Nat → Bool} {b : FBlock} {l : List Nat} (hn : (bs.map (·.id)).Nodup) (hb : b ∈ bs) (h : Chain P C b.id l)
    (hl : ∀ c ∈ l, c ∈ bs.map (·.id)) : criticalCnt bs P C b = .ok (BitVec.ofNat 32 ((l.map (insnsIn bs)).sum)) := by
  unfold criticalCnt
  have hlen : l.length ≤ bs.length := by
    have := List.Nodup.length_le_of_subset h.nodup hl
    simpa using this
  rw [critLoop_chain h hl _ _ (by omega)]
  have el : l = b.id :: l.tail := by cases h <;> rfl
  have eb : insnsIn bs b.id = b.insns.countP counted := by
    unfold insnsIn
    obtain ⟨x, hx, e1, e2⟩ := look_mem (hl b.id (by rw [el]; simp))
    unfold look at e2
    split at e2
    · cases e2
      rename_i e
      rw [e]
      dsimp only
      rw [same_block hn hx hb e1]
    · cases e2
  conv => rhs; rw [el]
  rw [List.map_cons, List.sum_cons, eb, BitVec.ofNat_add]
  rfl

/-! ## Filling -/

/-- An operand with the two counts in place of the placeholders. -/
def putVal (n c : BitVec 64) : FVal → FVal
  | .const .plain _ t .bbInsnCnt => .const .plain n t .bbInsnCnt
  | .const .plain _ t .bbInsnCriticalCnt => .const .plain c t .bbInsnCriticalCnt
  | v => v

/-- An instruction with the two counts in place of the placeholders among its operands. -/
def putInsn (n c : BitVec 64) (i : FInsn) : FInsn :=
  { i with
    v0 := if i.valueNum ≥ 1 then putVal n c i.v0 else i.v0
    v1 := if i.valueNum ≥ 2 then putVal n c i.v1 else i.v1
    addr := if i.op = .loadraw ∨ i.op = .storeraw then putVal n c i.addr else i.addr }

/-- A block with the number of its instructions, and the number of those of its chain `L`, in place of the placeholders. -/
def putBlock (bs : List FBlock) (L : Nat → List Nat) (b : FBlock) : FBlock :=
  { b with insns := b.insns.map (putInsn ((BitVec.ofNat 32 (insnsIn bs b.id)).setWidth 64) ((BitVec.ofNat 32 (((L b.id).map (insnsIn bs)).sum)).setWidth 64)) }

theorem fillInsn_put {bs : List FBlock} {P : Nat → List Nat} {C : Nat → Bool} {b : FBlock} {n c : BitVec 32} (hn : insnCnt b = n) (hc : criticalCnt bs P C b = .ok c) (i : FInsn) :
    fillInsn bs P C b i = .ok (putInsn (n.setWidth 64) (c.setWidth 64) i) := by
  have e : ∀ v, fillVal bs P C b v = .ok (putVal (n.setWidth 64) (c.setWidth 64) v) := by
    intro v
    cases v with
    | const k d t u =>
      cases k <;> cases u <;> first
        | rfl
        | (simp only [fillVal, putVal, hc, Out.ok_bind]; done)
        | (simp only [fillVal, putVal, hn]; done)
    | pos p => rfl
    | other => rfl
  have e2 : ∀ (q : Bool) v, fillIf q bs P C b v = .ok (if q = true then putVal (n.setWidth 64) (c.setWidth 64) v else v) := by
    intro q v
    unfold fillIf
    cases q
    · rfl
    · exact e v
  unfold fillInsn putInsn
  rw [e2, Out.ok_bind, e2, Out.ok_bind, e2, Out.ok_bind]
  simp only [decide_eq_true_eq]

theorem fillInsns_put {bs : List FBlock} {P : Nat → List Nat} {C : Nat → Bool} {b : FBlock} {n c : BitVec 32} (hn : insnCnt b = n) (hc : criticalCnt bs P C b = .ok c) (is : List FInsn) :
    fillInsns bs P C b is = .ok (is.map (putInsn (n.setWidth 64) (c.setWidth 64))) := by
  induction is with
  | nil => rfl
  | cons i is ih => rw [fillInsns, fillInsn_put hn hc, Out.ok_bind, ih]; rfl

/-- **C77** (what is emitted).  With placeholders in any place, emission after normalisation is translation of the blocks in which each placeholder has become the number of the instructions of
its block, or of the chain of the block.  Missing: chains that do not end (`C77_violated_critical`). -/
theorem C77_filled_partial {bs ns : List FBlock} {P : Nat → List Nat} {C : Nat → Bool} {L : Nat → List Nat} (e : normBlocks bs = .ok ns) (hn : (ns.map (·.id)).Nodup)
    (hL : ∀ b ∈ ns, Chain P C b.id (L b.id) ∧ ∀ c ∈ L b.id, c ∈ ns.map (·.id)) :
    emitB P C bs = (do
      let ts ← trBlocks (ns.map (putBlock ns L))
      checkTotal ts
      emitT ts) := by
  have h : ∀ r : List FBlock, (∀ b ∈ r, b ∈ ns) → fillBlocks ns P C r = .ok (r.map (putBlock ns L)) := by
    intro r
    induction r with
    | nil => intro _; rfl
    | cons b r ih =>
      intro hr
      have hb := hr b (by simp)
      have e1 : insnsIn ns b.id = b.insns.countP counted := by
        unfold insnsIn
        obtain ⟨x, hx, e1, e2⟩ := look_mem (List.mem_map.2 ⟨b, hb, rfl⟩)
        unfold look at e2
        split at e2
        · cases e2
          rename_i e
          rw [e]
          dsimp only
          rw [same_block hn hx hb e1]
        · cases e2
      rw [fillBlocks, fillInsns_put (n := BitVec.ofNat 32 (insnsIn ns b.id)) (by unfold insnCnt; rw [e1]) (C77_critical_partial hn hb (hL b hb).1 (hL b hb).2), Out.ok_bind,
        ih fun c hc => hr c (List.mem_cons_of_mem _ hc)]
      rfl
  unfold emitB
  rw [e, Out.ok_bind, h ns (fun _ h => h), Out.ok_bind]

/-! ## Examples -/

/-- A block with a counter, as `insn_counter` leaves it: the counter is in the slot at -8 and is loaded into r1, and before that there are two more instructions, one of which is a copy
of r2 to itself. -/
def counterBlock (v : VrPos) : FBlock := ⟨0, [
  { op := .alloc, dst := ⟨true, 0, -8⟩, vrType := .t32 },
  { op := .assign, v0 := .pos v, valueNum := 1, dst := ⟨true, 2, 0⟩ },
  { op := .load, v0 := .pos ⟨true, 0, -8⟩, valueNum := 1, vrType := .t32, dst := ⟨true, 1, 0⟩ },
  { op := .add, v0 := .pos ⟨true, 1, 0⟩, v1 := .const .plain (-1) .w32 .bbInsnCnt, valueNum := 2, aluOp := .w64, dst := ⟨true, 3, 0⟩ },
  { op := .store, v0 := .pos ⟨true, 0, -8⟩, v1 := .pos ⟨true, 3, 0⟩, valueNum := 2, vrType := .t32 },
  { op := .ret, v0 := .pos ⟨true, 3, 0⟩, valueNum := 1 }]⟩

/-- Whether all builtin constants are where `insn_counter` puts them. -/
def countsB (i : FInsn) : Bool :=
  let bare (v : FVal) : Bool := match v with | .const _ _ _ b => b == .none | _ => true
  bare i.v0 && bare i.addr && (bare i.v1 || (i.op == .add && i.valueNum == 2 && (match i.v0 with | .pos _ => true | _ => false) &&
    match i.v1 with | .const .plain _ .w32 .bbInsnCnt => true | _ => false))

theorem counts_of_check {i : FInsn} (h : countsB i = true) : Counts i := by
  have hb : ∀ v : FVal, (match v with | .const _ _ _ b => b == .none | _ => true : Bool) = true → Bare v := by
    intro v hv k c t b e
    subst e
    simpa using hv
  simp only [countsB, Bool.and_eq_true, Bool.or_eq_true] at h
  obtain ⟨⟨h1, h2⟩, h3⟩ := h
  refine ⟨hb _ h1, hb _ h2, ?_⟩
  rcases h3 with h3 | ⟨⟨⟨h3, h4⟩, h5⟩, h6⟩
  · exact .inl (hb _ h3)
  · refine .inr ⟨by simpa using h3, by simpa using h4, ?_, ?_⟩
    · split at h5
      · exact ⟨_, by assumption⟩
      · cases h5
    · split at h6
      · exact ⟨_, by assumption⟩
      · cases h6

/-- The hypotheses of `C77_counts_partial` hold.  The seven instructions of the first block are counted and emitted; in the second block nothing is emitted for the copy of r2 to itself,
which normalization removes, so that it is not counted either. -/
example : (∀ b ∈ [counterBlock ⟨true, 4, 0⟩], ∀ i ∈ b.insns, Counts i) ∧
    ∃ code, emitB (fun _ => []) (fun _ => false) [counterBlock ⟨true, 4, 0⟩] = .ok code ∧ code.length = 7 ∧ code[3]? = some ⟨0x07, 3, 0, 0, 7⟩ :=
  ⟨fun b hb i hi => counts_of_check (by
    have : ([counterBlock ⟨true, 4, 0⟩].all fun b => b.insns.all countsB) = true := by decide +kernel
    exact List.all_eq_true.1 (List.all_eq_true.1 this b hb) i hi), _, rfl, by decide +kernel, by decide +kernel⟩

example : ∃ code, emitB (fun _ => []) (fun _ => false) [counterBlock ⟨true, 2, 0⟩] = .ok code ∧ code.length = 6 ∧ code[2]? = some ⟨0x07, 3, 0, 0, 6⟩ :=
  ⟨_, rfl, by decide +kernel, by decide +kernel⟩

/-- A block with an addition of zero. -/
def zeroBlock : FBlock := ⟨0, [
  { op := .add, v0 := .pos ⟨true, 2, 0⟩, v1 := .const .plain 0 .w32 .none, valueNum := 2, aluOp := .w64, dst := ⟨true, 2, 0⟩ },
  { op := .add, v0 := .pos ⟨true, 0, 0⟩, v1 := .const .plain (-1) .w32 .bbInsnCnt, valueNum := 2, aluOp := .w64, dst := ⟨true, 0, 0⟩ },
  { op := .ret }]⟩

/-- **C77** (violation): the constant is not always the number of machine instructions of the block.  `zeroBlock` gets two instructions, and the constant is three. -/
theorem C77_violated_exact : (∀ b ∈ [zeroBlock], ∀ i ∈ b.insns, Counts i) ∧
    emitB (fun _ => []) (fun _ => false) [zeroBlock] = .ok [⟨0x07, 0, 0, 0, 3⟩, ⟨0x95, 0, 0, 0, 0⟩] :=
  ⟨fun b hb i hi => counts_of_check (by
    have : ([zeroBlock].all fun b => b.insns.all countsB) = true := by decide +kernel
    exact List.all_eq_true.1 (List.all_eq_true.1 this b hb) i hi), by decide +kernel⟩

/-- A block that assigns a builtin constant of 64 bits. -/
def wideBlock : FBlock := ⟨0, [
  { op := .assign, v0 := .const .plain (-1) .w64 .bbInsnCnt, valueNum := 1, dst := ⟨true, 0, 0⟩ },
  { op := .ret }]⟩

/-- **C77** (violation): normalization turns the assignment of a constant of 64 bits into a load of its value, which is the placeholder; the replacement comes too late.  The block
returns -1 in place of the number 2. -/
theorem C77_violated_wide : emitB (fun _ => []) (fun _ => false) [wideBlock] = .ok [⟨0x18, 0, 0, 0, -1⟩, ⟨0, 0, 0, 0, -1⟩, ⟨0x95, 0, 0, 0, 0⟩] := by decide +kernel

/-- The same block with a constant of 32 bits is right. -/
example : emitB (fun _ => []) (fun _ => false) [⟨0, [{ op := .assign, v0 := .const .plain (-1) .w32 .bbInsnCnt, valueNum := 1, dst := ⟨true, 0, 0⟩ }, { op := .ret }]⟩] =
    .ok [⟨0xb7, 0, 0, 0, 2⟩, ⟨0x95, 0, 0, 0, 0⟩] := by decide +kernel

/-- **C77** (violation): on two blocks that are each other's only predecessor and have no counter, the loop of `bb_insn_critical_cnt` does not end, however long it goes on. -/
theorem C77_violated_critical (bs : List FBlock) (h0 : 0 ∈ bs.map (·.id)) (h1 : 1 ∈ bs.map (·.id)) (n : Nat) (cnt : BitVec 32) :
    ∀ b, b = 0 ∨ b = 1 → critLoop bs (fun b => [1 - b]) (fun _ => false) n b cnt = .ub := by
  induction n generalizing cnt with
  | zero => intro b _; rfl
  | succ n ih =>
    intro b hb
    rw [critLoop]
    dsimp only
    obtain ⟨x, -, -, e⟩ := look_mem (show (1 - b) ∈ bs.map (·.id) by rcases hb with rfl | rfl; exact h1; exact h0)
    rw [e]
    exact ih _ _ (by omega)

/-- Three blocks in a row. -/
example : Chain (fun b => if b = 0 then [] else [b - 1]) (fun _ => false) 2 [2, 1, 0] ∧
    criticalCnt [⟨0, [{ op := .alloc }, { op := .ja, bb1 := 1 }]⟩, ⟨1, [{ op := .call }, { op := .ja, bb1 := 2 }]⟩, ⟨2, [{ op := .ret }]⟩] (fun b => if b = 0 then [] else [b - 1])
      (fun _ => false) ⟨2, [{ op := .ret }]⟩ = .ok 4 :=
  ⟨.step _ 1 _ rfl rfl (.step _ 0 _ rfl rfl (.many _ (by simp))), by decide +kernel⟩

/-- A critical count over two blocks: one instruction in the first, two in the second. -/
example : emitB (fun b => if b = 0 then [] else [b - 1]) (fun _ => false)
    [⟨0, [{ op := .assign, v0 := .const .plain 7 .w32 .none, valueNum := 1, dst := ⟨true, 1, 0⟩ }]⟩,
     ⟨1, [{ op := .assign, v0 := .const .plain (-1) .w32 .bbInsnCriticalCnt, valueNum := 1, dst := ⟨true, 0, 0⟩ }, { op := .ret }]⟩] =
    .ok [⟨0xb7, 1, 0, 0, 7⟩, ⟨0xb7, 0, 0, 0, 3⟩, ⟨0x95, 0, 0, 0, 0⟩] := by decide +kernel

end Verif.Emit
