import Verif.Emit.Place
import Verif.Norm.Sound3
/-! # Normalization neither adds nor loses jumps (helper lemmas) -/
set_option linter.unusedSimpArgs false
namespace Verif.Emit
open Verif Verif.Norm Verif.Bpf

def NoJ (is : List FInsn) : Prop := ∀ j ∈ is, isJump j.op = false

@[simp] theorem NoJ_nil : NoJ [] := by simp [NoJ]
@[simp] theorem NoJ_cons (i is) : NoJ (i :: is) ↔ isJump i.op = false ∧ NoJ is := by simp [NoJ]
@[simp] theorem NoJ_append (a b) : NoJ (a ++ b) ↔ NoJ a ∧ NoJ b := by
  simp only [NoJ, List.mem_append]
  exact ⟨fun h => ⟨fun j hj => h j (Or.inl hj), fun j hj => h j (Or.inr hj)⟩,
    fun h j hj => hj.elim (h.1 j) (h.2 j)⟩

theorem assign_nojump {i : FInsn} {r : Option FInsn} (hn : isJump i.op = false) (h : normAssign i = .ok r) : NoJ r.toList := by
  simp only [normAssign] at h
  obtain ⟨t0, h0, h⟩ := Out.bind_eq_ok.1 h
  split at h
  · obtain ⟨u, h1, h⟩ := Out.bind_eq_ok.1 h
    simp at h; subst h; simp [isJump, Op.condJmp]
  · split at h
    · simp at h; subst h; simp
    · simp at h; subst h
      simp only [Option.toList, NoJ_cons, NoJ_nil, and_true]
      split
      · simp [isJump, Op.condJmp]
      · split
        · simp [isJump, Op.condJmp]
        · exact hn

theorem loadConst_nojump (v d) : isJump (normLoadConst v d).op = false := by
  simp only [normLoadConst]
  split <;> simp [isJump, Op.condJmp, mkAssign]

theorem alu_nojump {i : FInsn} {r : List FInsn} (hn : isJump i.op = false) (h : normAlu i = .ok r) : NoJ r := by
  simp only [normAlu] at h
  obtain ⟨t0, h0, h⟩ := Out.bind_eq_ok.1 h
  obtain ⟨t1, h1, h⟩ := Out.bind_eq_ok.1 h
  obtain ⟨u, h2, h⟩ := Out.bind_eq_ok.1 h
  obtain ⟨⟨pre, j, t0', t1'⟩, h3, h⟩ := Out.bind_eq_ok.1 h
  simp only at h
  have hp : NoJ pre ∧ isJump j.op = false := by
    split at h3
    · split at h3
      · simp at h3; obtain ⟨rfl, rfl, -⟩ := h3; exact ⟨by simp, hn⟩
      · split at h3
        · simp at h3; obtain ⟨rfl, rfl, -⟩ := h3; simp [isJump, Op.condJmp]
        · simp at h3
    · simp at h3; obtain ⟨rfl, rfl, -⟩ := h3; exact ⟨by simp, hn⟩
  obtain ⟨u1, h4, h⟩ := Out.bind_eq_ok.1 h
  obtain ⟨u2, h5, h⟩ := Out.bind_eq_ok.1 h
  split at h
  · obtain ⟨n, h6, h⟩ := Out.bind_eq_ok.1 h
    simp at h; subst h
    have := assign_nojump (by simp [isJump, Op.condJmp, mkAssign]) h6
    simp [hp, this]
  · split at h
    · have ha : isJump (mkAssign j.dst j.v0).op = false := by simp [isJump, Op.condJmp, mkAssign]
      split at h <;> simp at h <;> subst h <;> simp [hp, ha]
    · split at h
      · simp at h; subst h; simp [hp, loadConst_nojump]
      · simp at h

theorem norm_nojump {i : FInsn} {r : List FInsn} (hn : isJump i.op = false) (h : normInsn i = .ok r) : NoJ r := by
  have hb : ∀ h0 : normInsn i = normAlu i, NoJ r := fun h0 => alu_nojump hn (h0 ▸ h)
  cases ho : i.op
  case alloc | allocarray | loadimm | call => simp [normInsn, ho] at h; subst h; simpa using hn
  case ja | jeq | jgt | jge | jlt | jle | jne | jsge | jsle | jsgt | jslt => simp [isJump, ho, Op.condJmp] at hn
  case add | sub | mul | div | or | and | lsh | arsh | rsh | mod | xor =>
    exact hb (by simp [normInsn, ho, Op.binAlu])
  case throw | phi | reg | funarg | ecall => simp [normInsn, ho, Op.binAlu, Op.condJmp] at h
  case getelemptr =>
    simp only [normInsn, ho, normGetelemptr] at h
    obtain ⟨t0, h0, h⟩ := Out.bind_eq_ok.1 h
    obtain ⟨t1, h1, h⟩ := Out.bind_eq_ok.1 h
    obtain ⟨u, h2, h⟩ := Out.bind_eq_ok.1 h
    obtain ⟨u', h3, h⟩ := Out.bind_eq_ok.1 h
    split at h
    · obtain ⟨u'', h3, h⟩ := Out.bind_eq_ok.1 h
      refine alu_nojump ?_ h
      split <;> simp [isJump, Op.condJmp]
    · split at h
      · split at h <;> simp at h <;> subst h <;> simp [isJump, Op.condJmp, mkAssign]
      · simp at h; subst h; simp [isJump, Op.condJmp]
  case store =>
    simp only [normInsn, ho, normStore] at h
    split at h
    · obtain ⟨t0, h0, h⟩ := Out.bind_eq_ok.1 h
      simp at h; subst h
      exact assign_nojump (by simp [isJump, Op.condJmp]) h0
    · simp at h
  case load =>
    simp only [normInsn, ho, normLoad] at h
    obtain ⟨t0, h0, h⟩ := Out.bind_eq_ok.1 h
    simp at h; subst h
    exact assign_nojump (by simp [isJump, Op.condJmp]) h0
  case loadraw | storeraw =>
    simp only [normInsn, ho, normStackoff] at h
    obtain ⟨t0, h0, h⟩ := Out.bind_eq_ok.1 h
    split at h <;> simp at h <;> subst h <;> simp [isJump, Op.condJmp, ho]
  case neg | htobe | htole =>
    simp only [normInsn, ho, normUnary] at h
    obtain ⟨t0, h0, h⟩ := Out.bind_eq_ok.1 h
    obtain ⟨u, h1, h⟩ := Out.bind_eq_ok.1 h
    split at h
    · split at h <;> simp at h <;> subst h <;> simp [isJump, Op.condJmp, mkAssign, ho]
    · split at h
      · simp at h
      · split at h <;> simp at h <;> subst h <;> simp [isJump, Op.condJmp, mkAssign, ho]
  case assign =>
    simp only [normInsn, ho] at h
    obtain ⟨t0, h0, h⟩ := Out.bind_eq_ok.1 h
    simp at h; subst h
    exact assign_nojump hn h0
  case ret =>
    simp only [normInsn, ho, normRet] at h
    split at h
    · simp at h; subst h; simpa using hn
    · obtain ⟨t0, h0, h⟩ := Out.bind_eq_ok.1 h
      obtain ⟨u, h1, h⟩ := Out.bind_eq_ok.1 h
      simp at h; subst h
      simp [isJump, Op.condJmp, mkAssign, ho]

theorem swapCond_jump {o o' : Op} (h : swapCond o = some o') : o'.condJmp = true := by
  cases o <;> simp [swapCond] at h <;> subst h <;> rfl

theorem condJmp_ne_ja {o : Op} (h : o.condJmp = true) : o ≠ .ja := by
  rintro rfl; simp [Op.condJmp] at h

/-- A conditional jump normalizes to nothing or to one jump to the same target. -/
theorem norm_cond {i : FInsn} {r : List FInsn} (hc : i.op.condJmp = true) (h : normInsn i = .ok r) :
    r = [] ∨ ∃ j, r = [j] ∧ isJump j.op = true ∧ jumpTarget j = i.bb2 := by
  have hno : normInsn i = (do let r ← normCondJmp i; Out.ok r.toList) := by
    cases ho : i.op <;> simp [ho, Op.condJmp] at hc <;> simp [normInsn, ho, Op.binAlu, Op.condJmp]
  rw [hno] at h
  obtain ⟨r', h0, h⟩ := Out.bind_eq_ok.1 h
  simp at h; subst h
  simp only [normCondJmp] at h0
  obtain ⟨t0, h1, h0⟩ := Out.bind_eq_ok.1 h0
  obtain ⟨t1, h2, h0⟩ := Out.bind_eq_ok.1 h0
  split at h0
  · split at h0
    · split at h0
      · split at h0
        · simp at h0; subst h0
          exact Or.inr ⟨_, rfl, by simp [isJump], by simp [jumpTarget]⟩
        · simp at h0; subst h0; exact Or.inl rfl
      · simp at h0
    · split at h0
      · rename_i o ho
        simp at h0; subst h0
        have := swapCond_jump ho
        exact Or.inr ⟨_, rfl, by simp [isJump, this], by simp [jumpTarget, condJmp_ne_ja this]⟩
      · simp at h0
  · simp at h0; subst h0
    exact Or.inr ⟨_, rfl, by simp [isJump, hc], by simp [jumpTarget, condJmp_ne_ja hc]⟩

/-- `lower`, keeping the normalized instructions. -/
def lowerI (i : FInsn) : Out (List TInsn) := do
  let is ← normInsn i
  trInsns is

def lowerIs : List FInsn → Out (List TInsn)
  | [] => .ok []
  | i :: is => do
    let a ← lowerI i
    let b ← lowerIs is
    Out.ok (a ++ b)

theorem trInsns_append {a b : List FInsn} {r : List TInsn} : trInsns (a ++ b) = .ok r ↔
    ∃ x y, trInsns a = .ok x ∧ trInsns b = .ok y ∧ r = x ++ y := by
  induction a generalizing r with
  | nil => simp [trInsns]
  | cons i a ih =>
    constructor
    · intro h
      simp only [List.cons_append, trInsns] at h
      obtain ⟨p, h1, h⟩ := Out.bind_eq_ok.1 h
      obtain ⟨q, h2, h⟩ := Out.bind_eq_ok.1 h
      obtain ⟨x, y, e1, e2, rfl⟩ := ih.1 h2
      simp at h; subst h
      exact ⟨⟨i, p⟩ :: x, y, by simp [trInsns, h1, e1], e2, rfl⟩
    · rintro ⟨x, y, h1, h2, rfl⟩
      simp only [trInsns] at h1
      obtain ⟨p, h3, h1⟩ := Out.bind_eq_ok.1 h1
      obtain ⟨q, h4, h1⟩ := Out.bind_eq_ok.1 h1
      simp at h1; subst h1
      have := ih.2 ⟨q, y, h4, h2, rfl⟩
      simp [trInsns, h3, this]

theorem lowerIs_eq {l is : List FInsn} {x : List TInsn} (h3 : mapCat normInsn l = .ok is) (h2 : trInsns is = .ok x) :
    lowerIs l = .ok x := by
  induction l generalizing is x with
  | nil => simp [mapCat] at h3; subst h3; simp [trInsns] at h2; subst h2; rfl
  | cons i l ih =>
    obtain ⟨a, c, e1, e2, rfl⟩ := mapCat_ok_cons h3
    obtain ⟨x1, x2, f1, f2, rfl⟩ := trInsns_append.1 h2
    simp [lowerIs, lowerI, e1, f1, ih e2 f2]

theorem lowerBlock_eq {b : FBlock} {t : TBlock} (h : lowerBlock b = .ok t) :
    t.id = b.id ∧ lowerIs b.insns = .ok t.body := by
  simp only [lowerBlock, normBlock] at h
  obtain ⟨n, h1, h⟩ := Out.bind_eq_ok.1 h
  obtain ⟨x, h2, h⟩ := Out.bind_eq_ok.1 h
  obtain ⟨is, h3, h1⟩ := Out.bind_eq_ok.1 h1
  simp at h1 h
  subst h h1
  exact ⟨rfl, lowerIs_eq h3 h2⟩

theorem trInsns_mapCat {is : List FInsn} {r : List TInsn} (h : trInsns is = .ok r) :
    mapCat trInsn is = .ok (mcI r) ∧ r.map (·.insn) = is := by
  induction is generalizing r with
  | nil => simp [trInsns] at h; subst h; simp [mapCat, mcI]
  | cons i is ih =>
    simp only [trInsns] at h
    obtain ⟨p, h1, h⟩ := Out.bind_eq_ok.1 h
    obtain ⟨q, h2, h⟩ := Out.bind_eq_ok.1 h
    simp at h; subst h
    obtain ⟨e1, e2⟩ := ih h2
    simp [mapCat, h1, e1, mcI, e2]

theorem lowerI_lower {i : FInsn} {r : List TInsn} (h : lowerI i = .ok r) : lower i = .ok (mcI r) := by
  simp only [lowerI] at h
  obtain ⟨is, h1, h⟩ := Out.bind_eq_ok.1 h
  simp [lower, h1, (trInsns_mapCat h).1]

theorem lowerI_nojump {i : FInsn} {r : List TInsn} (hn : isJump i.op = false) (h : lowerI i = .ok r) :
    ∀ j ∈ r, isJump j.insn.op = false := by
  simp only [lowerI] at h
  obtain ⟨is, h1, h⟩ := Out.bind_eq_ok.1 h
  have := norm_nojump hn h1
  intro j hj
  apply this
  rw [← (trInsns_mapCat h).2]
  exact List.mem_map.2 ⟨j, hj, rfl⟩

/-- The lowered form of a jump instruction: nothing, or one jump with the same taken-target. -/
theorem lowerI_cond {i : FInsn} {r : List TInsn} (hc : i.op.condJmp = true) (h : lowerI i = .ok r) :
    r = [] ∨ ∃ t, r = [t] ∧ isJump t.insn.op = true ∧ jumpTarget t.insn = i.bb2 := by
  simp only [lowerI] at h
  obtain ⟨is, h1, h⟩ := Out.bind_eq_ok.1 h
  rcases norm_cond hc h1 with rfl | ⟨j, rfl, h2, h3⟩
  · simp [trInsns] at h; exact Or.inl h
  · have := (trInsns_mapCat h).2
    right
    rcases r with - | ⟨t, - | ⟨t', r⟩⟩ <;> simp at this
    exact ⟨t, rfl, by rw [this]; exact ⟨h2, h3⟩⟩

theorem lowerI_ja {i : FInsn} {r : List TInsn} (hc : i.op = .ja) (h : lowerI i = .ok r) :
    r = [⟨i, [jaP]⟩] := by
  simp [lowerI, normInsn, hc, trInsns, trInsn] at h
  exact h.symm

theorem lowerBlocks_split {bs A B : List FBlock} {b : FBlock} {ts : List TBlock}
    (hbs : bs = A ++ b :: B) (h : lowerBlocks bs = .ok ts) :
    ∃ TA t TB, ts = TA ++ t :: TB ∧ lowerBlocks A = .ok TA ∧ lowerBlock b = .ok t ∧ lowerBlocks B = .ok TB := by
  induction A generalizing bs ts with
  | nil =>
    subst hbs
    simp only [List.nil_append, lowerBlocks] at h
    obtain ⟨t, h1, h⟩ := Out.bind_eq_ok.1 h
    obtain ⟨u, h2, h⟩ := Out.bind_eq_ok.1 h
    simp at h; subst h
    exact ⟨[], t, u, rfl, rfl, h1, h2⟩
  | cons a A ih =>
    subst hbs
    simp only [List.cons_append, lowerBlocks] at h
    obtain ⟨t, h1, h⟩ := Out.bind_eq_ok.1 h
    obtain ⟨u, h2, h⟩ := Out.bind_eq_ok.1 h
    simp at h; subst h
    obtain ⟨TA, t', TB, rfl, e1, e2, e3⟩ := ih rfl h2
    exact ⟨t :: TA, t', TB, rfl, by simp [lowerBlocks, h1, e1], e2, e3⟩

theorem lowerBlocks_ids {bs : List FBlock} {ts : List TBlock} (h : lowerBlocks bs = .ok ts) :
    ts.map (·.id) = bs.map (·.id) := by
  induction bs generalizing ts with
  | nil => simp [lowerBlocks] at h; subst h; rfl
  | cons a A ih =>
    simp only [lowerBlocks] at h
    obtain ⟨t, h1, h⟩ := Out.bind_eq_ok.1 h
    obtain ⟨u, h2, h⟩ := Out.bind_eq_ok.1 h
    simp at h; subst h
    simp [ih h2, (lowerBlock_eq h1).1]

end Verif.Emit
