import Verif.Compile.DeadCode
import Verif.Compile.LegalProps
/-!
# C81: no dead code is emitted

The kernel's verifier rejects a program with an instruction that cannot be reached.  The statement uses `Bpf.SlotReach` of `Verif/Spec/Cfg.lean`, which follows the decoded instructions of the
result, and `BlockReach` below, which follows the jumps of the blocks.
-/
namespace Verif.Compile
open Verif.Norm Verif.Flat Verif.Emit Verif.Bpf

/-- Control can get from the first block to the one with this number: by running on to the block behind, unless the block ends with a jump or a return, or by a jump. -/
inductive BlockReach (bs : List FBlock) : Nat → Prop
  | first {b : FBlock} {C : List FBlock} : bs = b :: C → BlockReach bs b.id
  | fall {A C : List FBlock} {b c : FBlock} : bs = A ++ b :: c :: C → BlockReach bs b.id → (∀ xs i, b.insns = xs ++ [i] → i.op ≠ .ja ∧ i.op ≠ .ret) → BlockReach bs c.id
  | jump {b : FBlock} {i : FInsn} {n : Nat} : b ∈ bs → BlockReach bs b.id → i ∈ b.insns → (i.op = .ja ∧ i.bb1 = n ∨ i.op.condJmp = true ∧ i.bb2 = n) → BlockReach bs n

theorem split_unique {bs A A' B B' : List FBlock} {b c : FBlock} (hnd : (bs.map (·.id)).Nodup) (h1 : bs = A ++ b :: B) (h2 : bs = A' ++ c :: B') (hid : b.id = c.id) :
    A = A' ∧ b = c ∧ B = B' := by
  induction A generalizing bs A' with
  | nil =>
    cases A' with
    | nil => rw [h1] at h2; simp at h2; exact ⟨rfl, h2⟩
    | cons a A' =>
      rw [h1] at h2 hnd
      simp only [List.nil_append, List.cons_append, List.cons.injEq] at h2
      exfalso
      rw [List.nil_append, List.map_cons, List.nodup_cons] at hnd
      exact hnd.1 (List.mem_map.2 ⟨c, by rw [h2.2]; simp, hid.symm⟩)
  | cons a A ih =>
    cases A' with
    | nil =>
      rw [h2] at h1 hnd
      simp only [List.nil_append, List.cons_append, List.cons.injEq] at h1
      exfalso
      rw [List.nil_append, List.map_cons, List.nodup_cons] at hnd
      exact hnd.1 (List.mem_map.2 ⟨b, by rw [h1.2]; simp, hid⟩)
    | cons a' A' =>
      have h3 : a :: (A ++ b :: B) = a' :: (A' ++ c :: B') := by rw [← List.cons_append, ← h1, h2]; rfl
      injection h3 with e1 e2
      rw [h1, List.cons_append, List.map_cons, List.nodup_cons] at hnd
      obtain ⟨k1, k2⟩ := ih hnd.2 rfl e2
      exact ⟨by rw [e1, k1], k2⟩

/-- The blocks have different numbers, jumps (other than conditional ones) and returns stand at the end of blocks only, and no conditional jump compares two constants. -/
structure Orderly (bs : List FBlock) : Prop where
  ids : (bs.map (·.id)).Nodup
  last : ∀ b ∈ bs, ∀ X i Y, b.insns = X ++ i :: Y → i.op = .ja ∨ i.op = .ret → Y = []
  test : ∀ b ∈ bs, ∀ i ∈ b.insns, i.op.condJmp = true → ¬ ConstBoth i

theorem calm_or {is : List FInsn} (h : ∀ X i Y, is = X ++ i :: Y → i.op = .ja ∨ i.op = .ret → Y = []) :
    (∀ i ∈ is, i.op ≠ .ja ∧ i.op ≠ .ret) ∨ ∃ xs i, is = xs ++ [i] ∧ (i.op = .ja ∨ i.op = .ret) ∧ ∀ j ∈ xs, j.op ≠ .ja ∧ j.op ≠ .ret := by
  by_cases hx : ∃ i ∈ is, i.op = .ja ∨ i.op = .ret
  · obtain ⟨i, hi, ho⟩ := hx
    obtain ⟨X, Y, e⟩ := List.append_of_mem hi
    have hY := h X i Y e ho
    rw [hY] at e
    refine .inr ⟨X, i, e, ho, fun j hj => ?_⟩
    obtain ⟨X1, X2, e'⟩ := List.append_of_mem hj
    have no : ¬ (j.op = .ja ∨ j.op = .ret) := fun hc => by
      have := h X1 j (X2 ++ [i]) (by rw [e, e']; simp) hc
      simp at this
    exact ⟨fun a => no (.inl a), fun a => no (.inr a)⟩
  · refine .inl fun i hi => ⟨fun a => hx ⟨i, hi, .inl a⟩, fun a => hx ⟨i, hi, .inr a⟩⟩

theorem mc_snoc (A : List TBlock) (b : TBlock) : total (mc (A ++ [b])) = total (mc A) + total (mcI b.body) := by simp [mc]

theorem lowerBlocks_snoc {A : List FBlock} {b : FBlock} {TA : List TBlock} {t : TBlock} (h1 : lowerBlocks A = .ok TA) (h2 : lowerBlock b = .ok t) :
    lowerBlocks (A ++ [b]) = .ok (TA ++ [t]) := by
  induction A generalizing TA with
  | nil => cases h1; simp [lowerBlocks, h2]
  | cons a A ih =>
    simp only [lowerBlocks] at h1
    obtain ⟨u, k1, h1⟩ := Out.bind_eq_ok.1 h1
    obtain ⟨us, k2, h1⟩ := Out.bind_eq_ok.1 h1
    cases h1
    simp [lowerBlocks, k1, ih k2]

section
variable {bs : List FBlock} {ts : List TBlock} {code : List Slot} (hO : Orderly bs) (hl : lowerBlocks bs = .ok ts) (he : emitT ts = .ok code)
include hO he

/-- From its first slot, a block is walked through; if it does not end with a jump or a return, to the next block. -/
theorem block_walk {A B : List FBlock} {b : FBlock} {TA TB : List TBlock} {t : TBlock} (hbs : bs = A ++ b :: B) (hts : ts = TA ++ t :: TB) (hb : lowerBlock b = .ok t)
    (h : Ok code (total (mc TA))) : (∀ j < total (mcI t.body), Ok code (total (mc TA) + j)) ∧
      ((∀ xs i, b.insns = xs ++ [i] → i.op ≠ .ja ∧ i.op ≠ .ret) → Ok code (total (mc TA) + total (mcI t.body))) := by
  have hm : b ∈ bs := by rw [hbs]; simp
  have h0 : Ok code (total (mc TA) + total (mcI [])) := by simpa [mcI] using h
  have hlo := (lowerBlock_eq hb).2
  have htr := lowerIs_tr hlo
  rcases calm_or (hO.last b hm) with hc | ⟨xs, i, e, ho, hc⟩
  · have hcalm := lowerIs_calm hc (hO.test b hm) hlo
    have w := calm_walk hts he t.body [] [] (by simp) hcalm htr h0
    simp only [mcI, List.flatMap_nil, total_nil, Nat.add_zero] at w
    exact ⟨fun j hj => w j (Nat.le_of_lt hj), fun _ => w _ (Nat.le_refl _)⟩
  · rw [e] at hlo
    obtain ⟨x, y, l1, l2, l3⟩ := lowerIs_app hlo
    simp only [lowerIs] at l2
    obtain ⟨r, l4, l2⟩ := Out.bind_eq_ok.1 l2
    cases l2
    rw [List.append_nil] at l3
    obtain ⟨z, u, rfl, hz, hu, -⟩ := lowerI_last ho l4
    have hx := lowerIs_calm hc (fun j hj => hO.test b hm j (by rw [e]; simp [hj])) l1
    have hcalm : Calm (x ++ z) := fun v hv => (List.mem_append.1 hv).elim (hx v) (hz v)
    have w := calm_walk hts he (x ++ z) [] [u] (by rw [l3]; simp) hcalm (fun v hv => htr v (by rw [l3, ← List.append_assoc]; exact List.mem_append_left _ hv)) h0
    simp only [mcI, List.flatMap_nil, total_nil, Nat.add_zero] at w
    have e3 : total (mcI t.body) = total (mcI (x ++ z)) + 1 := by rw [l3, ← hu]; simp [mcI, Nat.add_assoc]
    refine ⟨fun j hj => w j (by rw [e3] at hj; exact Nat.le_of_lt_succ hj), fun hne => ?_⟩
    exact absurd ho (by have := hne xs i e; simp [this])

include hl in
theorem reach_start (hlen : code.length ≤ 32768) {n : Nat} (hr : BlockReach bs n) :
    ∀ A c B TA, bs = A ++ c :: B → c.id = n → lowerBlocks A = .ok TA → Ok code (total (mc TA)) := by
  induction hr with
  | @first b C e =>
    intro A c B TA h1 h2 h3
    obtain ⟨rfl, -, -⟩ := split_unique hO.ids h1 (show bs = [] ++ b :: C from e) h2
    cases h3
    exact fun h => .first h
  | @fall A0 C b c0 e _ hne ih =>
    intro A c B TA h1 h2 h3
    obtain ⟨rfl, -, -⟩ := split_unique hO.ids h1 (show bs = (A0 ++ [b]) ++ c0 :: C by rw [e]; simp) h2
    obtain ⟨T0, t, TB, e1, e2, e3, -⟩ := lowerBlocks_split e hl
    have w := (block_walk hO he e e1 e3 (ih A0 b _ T0 e rfl e2)).2 hne
    obtain ⟨T0', t', TB', k1, k2, k3, k4⟩ := lowerBlocks_split (bs := A0 ++ [b]) (A := A0) (b := b) (B := []) rfl h3
    rw [e2] at k2
    rw [e3] at k3
    cases k2; cases k3; cases k4
    rw [k1, mc_snoc]
    exact w
  | @jump b i n hb _ hi ho ih =>
    intro A c B TA h1 h2 h3
    obtain ⟨A0, C, e⟩ := List.append_of_mem hb
    obtain ⟨T0, t, TB, e1, e2, e3, -⟩ := lowerBlocks_split e hl
    have w := (block_walk hO he e e1 e3 (ih A0 b _ T0 e rfl e2)).1
    obtain ⟨T1, t1, TB1, f1, f2, f3, -⟩ := lowerBlocks_split h1 hl
    rw [h3] at f2
    cases f2
    have hnd : (ts.map (·.id)).Nodup := by rw [lowerBlocks_ids hl]; exact hO.ids
    have hlo := (lowerBlock_eq e3).2
    have htr := lowerIs_tr hlo
    obtain ⟨X, Y, ei⟩ := List.append_of_mem hi
    rw [ei] at hlo
    obtain ⟨x, y, -, l2, l3⟩ := lowerIs_app hlo
    simp only [lowerIs] at l2
    obtain ⟨r, l4, l2⟩ := Out.bind_eq_ok.1 l2
    obtain ⟨y', -, l2⟩ := Out.bind_eq_ok.1 l2
    cases l2
    have hu : ∃ u, r = [u] ∧ isJump u.insn.op = true ∧ jumpTarget u.insn = n := by
      rcases ho with ⟨o1, o2⟩ | ⟨o1, o2⟩
      · rw [lowerI_ja o1 l4]
        exact ⟨_, rfl, by simp [isJump, o1], by simp [jumpTarget, o1, o2]⟩
      · obtain ⟨u, e', o3, o4⟩ := lowerI_test o1 (hO.test b hb i hi o1) l4
        exact ⟨u, e', by simp [isJump, o3], by simp [jumpTarget, condJmp_ne_ja o3, o4, o2]⟩
    obtain ⟨u, rfl, u1, u2⟩ := hu
    have hbody : t.body = x ++ u :: y' := by rw [l3]; simp
    have hut := htr u (by rw [hbody]; simp)
    obtain ⟨p, ep⟩ := tr_single u1 hut
    have hpos : total (mcI x) < total (mcI t.body) := by
      rw [hbody]
      have : 0 < Emit.width p := by unfold Emit.width; split <;> omega
      simp [mcI, ep]
      omega
    refine jump_walk e1 he hbody u1 hut hlen hnd (w _ hpos) f1 ?_
    rw [(lowerBlock_eq f3).1, h2, u2]

end

/-- **C81** for emission.  If `bpf_ir_cg_norm` ends without an error on blocks with different numbers, with unconditional jumps and returns at their ends only and without comparisons of two
constants, each of which can be reached, then every slot of the code, if there are at most 32768, can be reached. -/
theorem C81_emitted {bs : List FBlock} {code : List Slot} (h : Emit.emit bs = .ok code) (hO : Orderly bs) (hr : ∀ b ∈ bs, BlockReach bs b.id) (hlen : code.length ≤ 32768) :
    ∀ p < code.length, SlotReach code p := by
  unfold Emit.emit at h
  obtain ⟨ts, h1, h⟩ := Out.bind_eq_ok.1 h
  obtain ⟨-, -, h⟩ := Out.bind_eq_ok.1 h
  have key : ∀ B A TA, bs = A ++ B → lowerBlocks A = .ok TA → ∀ p, total (mc TA) ≤ p → Ok code p := by
    intro B
    induction B with
    | nil =>
      intro A TA hbs e p hp hlt
      rw [List.append_nil] at hbs
      rw [← hbs, h1] at e
      cases e
      rw [code_length h] at hlt
      omega
    | cons b B ih =>
      intro A TA hbs e p hp
      obtain ⟨T1, t1, TB1, f1, f2, f3, -⟩ := lowerBlocks_split hbs h1
      rw [e] at f2
      cases f2
      by_cases hlt : p < total (mc TA) + total (mcI t1.body)
      · have hs := reach_start hO h1 h hlen (hr b (by rw [hbs]; simp)) A b B TA hbs rfl e
        have := (block_walk hO h hbs f1 f3 hs).1 (p - total (mc TA)) (by omega)
        rwa [show total (mc TA) + (p - total (mc TA)) = p by omega] at this
      · exact ih (A ++ [b]) (TA ++ [t1]) (by rw [hbs]; simp) (lowerBlocks_snoc e f3) p (by rw [mc_snoc]; omega)
  exact fun p hp => key bs [] [] rfl rfl p (by simp [mc]) hp

/-! ## The hypotheses hold for blocks with a jump, and the condition on comparisons is needed -/

/-- A test for the conditions on the blocks. -/
def orderlyB (bs : List FBlock) : Bool :=
  decide (bs.map (·.id)).Nodup && bs.all fun b => (b.insns.dropLast.all fun i => decide (i.op ≠ .ja ∧ i.op ≠ .ret)) &&
    b.insns.all fun i => !i.op.condJmp || match i.v0, i.v1 with | .const .., .const .. => false | _, _ => true

theorem orderly_of_check {bs : List FBlock} (h : orderlyB bs = true) : Orderly bs := by
  unfold orderlyB at h
  rw [Bool.and_eq_true, List.all_eq_true] at h
  refine ⟨of_decide_eq_true h.1, fun b hb X i Y e ho => ?_, fun b hb i hi ho hc => ?_⟩
  · have k := List.all_eq_true.1 (Bool.and_eq_true_iff.1 (h.2 b hb)).1
    cases Y with
    | nil => rfl
    | cons y Y =>
      have hm : i ∈ b.insns.dropLast := by rw [e, List.dropLast_append_of_ne_nil (by simp)]; simp
      have := of_decide_eq_true (k i hm)
      rcases ho with o | o
      · exact absurd o this.1
      · exact absurd o this.2
  · have k := List.all_eq_true.1 (Bool.and_eq_true_iff.1 (h.2 b hb)).2 i hi
    obtain ⟨⟨_, _, _, _, c1⟩, ⟨_, _, _, _, c2⟩⟩ := hc
    rw [ho, c1, c2] at k
    cases k

theorem exLoad_reach : ∀ b ∈ exLoad, BlockReach exLoad b.id := by
  have h0 : BlockReach exLoad 0 := .first (bs := exLoad) (b := ⟨0, _⟩) rfl
  intro b hb
  simp only [exLoad, List.mem_cons, List.not_mem_nil, or_false] at hb
  rcases hb with rfl | rfl | rfl
  · exact h0
  · refine .fall (bs := exLoad) (A := []) (b := ⟨0, _⟩) (c := ⟨1, _⟩) rfl h0 fun xs i e => ?_
    have := congrArg List.getLast? e
    simp at this
    rw [← this]
    exact ⟨by simp, by simp⟩
  · exact .jump (bs := exLoad) (b := ⟨0, _⟩) (i := { op := .jeq, v0 := .pos (inReg 2), v1 := const32 0, valueNum := 2, aluOp := .w64, bb1 := 1, bb2 := 2 })
      List.mem_cons_self h0 (by simp) (.inr ⟨rfl, rfl⟩)

example : ∀ p < 7, SlotReach exLoadCode p := C81_emitted (bs := exLoad) (code := exLoadCode) (by decide +kernel) (orderly_of_check (by decide +kernel)) exLoad_reach (by decide)

/-- `if 5 != 3 goto 2`, block 1: `return 1`, block 2: `return 2`. -/
def exKnownTest : List FBlock :=
  [⟨0, [{ op := .jne, v0 := const32 5, v1 := const32 3, valueNum := 2, aluOp := .w64, bb1 := 1, bb2 := 2 }]⟩,
   ⟨1, [{ op := .ret, v0 := const32 1, valueNum := 1 }]⟩, ⟨2, [{ op := .ret, v0 := const32 2, valueNum := 1 }]⟩]

/-- The condition on comparisons is needed: a jump on two constants that is always taken becomes an unconditional one (core/ir_cg_norm.c:250-304), and block 1 is emitted nevertheless. -/
theorem C81_emitted_violated : (∀ b ∈ exKnownTest, BlockReach exKnownTest b.id) ∧ ∃ code, Emit.emit exKnownTest = .ok code ∧ ∃ p < code.length, ¬ SlotReach code p := by
  refine ⟨fun b hb => ?_, [⟨0x05, 0, 0, 2, 0⟩, ⟨0xb7, 0, 0, 0, 1⟩, ⟨0x95, 0, 0, 0, 0⟩, ⟨0xb7, 0, 0, 0, 2⟩, ⟨0x95, 0, 0, 0, 0⟩], by decide +kernel, 1, by decide, fun h => ?_⟩
  · have h0 : BlockReach exKnownTest 0 := .first (bs := exKnownTest) (b := ⟨0, _⟩) rfl
    simp only [exKnownTest, List.mem_cons, List.not_mem_nil, or_false] at hb
    rcases hb with rfl | rfl | rfl
    · exact h0
    · refine .fall (bs := exKnownTest) (A := []) (b := ⟨0, _⟩) (c := ⟨1, _⟩) rfl h0 fun xs i e => ?_
      have := congrArg List.getLast? e
      simp at this
      rw [← this]
      exact ⟨by simp, by simp⟩
    · exact .jump (bs := exKnownTest) (b := ⟨0, _⟩) (i := { op := .jne, v0 := const32 5, v1 := const32 3, valueNum := 2, aluOp := .w64, bb1 := 1, bb2 := 2 })
        List.mem_cons_self h0 (by simp) (.inr ⟨rfl, rfl⟩)
  · have key : ∀ p, SlotReach [⟨0x05, 0, 0, 2, 0⟩, ⟨0xb7, 0, 0, 0, 1⟩, ⟨0x95, 0, 0, 0, 0⟩, ⟨0xb7, 0, 0, 0, 2⟩, ⟨0x95, 0, 0, 0, 0⟩] p → p ≠ 1 ∧ p ≠ 2 := by
      intro p hp
      induction hp with
      | first => decide
      | @next p q _ hq hl ih =>
        have hpl : p < 5 := by
          refine Classical.byContradiction fun hc => ?_
          rw [flow, List.getElem?_eq_none (by simpa using hc)] at hq
          cases hq
        have hql : q < 5 := hl
        have all : ((List.range 5).all fun p => (List.range 5).all fun q =>
            !(flow [⟨0x05, 0, 0, 2, 0⟩, ⟨0xb7, 0, 0, 0, 1⟩, ⟨0x95, 0, 0, 0, 0⟩, ⟨0xb7, 0, 0, 0, 2⟩, ⟨0x95, 0, 0, 0, 0⟩] p).contains (q : Int) || (p == 1 || p == 2 || (q != 1 && q != 2))) = true := by
          decide +kernel
        have := List.all_eq_true.1 (List.all_eq_true.1 all p (List.mem_range.2 hpl)) q (List.mem_range.2 hql)
        rw [List.contains_iff_mem.2 hq] at this
        simp at this
        omega
    exact (key 1 h).1 rfl

end Verif.Compile
