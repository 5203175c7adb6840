import Verif.Cg.LowerFresh
import Verif.Cg.SpillProps
/-!
# The lowered function is ready for the next steps
-/
namespace Verif.Cg
open Verif Verif.IR Verif.Edit Verif.Loc Verif.Lower
open Verif.Norm (VrPos Reg)

variable {f : Fn} {R : List Nat} {s : Cg} {rn : Nat → Nat} {H N M : Nat → List Nat} {C : List Nat} {A : List (Nat × Nat)}

theorem init_usersIn (ht : Tidy f) (hu : UsersListed f) (hf : ∀ y, y = f.sp ∨ y ∈ f.args → ∀ z, refs (f.insn y) z = 0) : UsersIn (initCg f).f := by
  intro y hy u hm
  show InBody f u
  rcases init_live.1 hy with h1 | ⟨i, h1, h2⟩
  · rw [init_users (ht.lt y h1)] at hm
    have hl := (hu y h1).2 u hm
    have hr := ((hu y h1).1 u hl).1 hm
    rcases hl with h | h | h
    · rw [hf u (.inl h)] at hr; omega
    · rw [hf u (.inr h)] at hr; omega
    · exact h
  · rw [h2] at hm
    have : (initCg f).f.users (rgOf f i) = [] := by
      show (if _ then _ else _) = _
      unfold rgOf
      rw [if_pos (by omega)]
    rw [this] at hm; cases hm

/-- An instruction of the lowered function. -/
theorem Low.cases (ht : Tidy f) (h : Low (initCg f).f (rgOf f) (initCg f).pos C A s rn H N M) (hC : ∀ y, y ∈ C ↔ (∃ b ∈ R, y ∈ f.body b) ∧ (f.insn y).op = .call)
    {b x : Nat} (hb : b ∈ f.allBbs) (hx : x ∈ s.f.body b) :
    (x ∈ f.body b ∧ ((x ∈ C ∧ s.f.insn x = { f.insn x with vals := [] }) ∨ (x ∉ C ∧ s.f.insn x = mapOps (renV rn) (f.insn x)))) ∨ ∃ v, s.f.insn x = mkAssign v := by
  have old : ∀ {y}, y ∈ f.body b → (y ∈ C ∧ s.f.insn y = { f.insn y with vals := [] }) ∨ (y ∉ C ∧ s.f.insn y = mapOps (renV rn) (f.insn y)) := by
    intro y hy
    have hyl : Live f y := .inr (.inr ⟨b, hb, hy⟩)
    have e := init_insn (ht.lt y hyl)
    by_cases hyC : y ∈ C
    · refine .inl ⟨hyC, ?_⟩
      rw [h.core.done y hyC, e]
    · refine .inr ⟨hyC, ?_⟩
      rw [h.core.old y (init_live.2 (.inl hyl)) hyC, e]
  rw [h.core.grown.body b hb] at hx
  simp only [List.append_nil, List.mem_append] at hx
  rcases hx with hx | hx | hx
  · rw [(init_code ht hb).1] at hx
    have := phis_body hx
    exact .inl ⟨this, old this⟩
  · right
    by_cases e : b = f.entry
    · subst e
      obtain ⟨⟨i, _, e⟩, _⟩ := h.core.resH x hx
      exact ⟨_, e⟩
    · rw [h.core.head b e] at hx; cases hx
  · rw [(init_code ht hb).2] at hx
    obtain ⟨y, hy, hx⟩ := List.mem_flatMap.1 hx
    rcases List.mem_append.1 hx with hx | hx
    · right
      by_cases hyC : y ∈ C
      · obtain ⟨v, -, e⟩ := (h.core.copies y hyC).asg x hx
        exact ⟨_, e⟩
      · rw [(h.core.none y hyC).1] at hx; cases hx
    · rcases List.mem_cons.1 hx with rfl | hx
      · exact .inl ⟨code_body hy, old (code_body hy)⟩
      · exact .inr ⟨_, (h.core.resM y x hx).1⟩

theorem Low.code (ht : Tidy f) (h : Low (initCg f).f (rgOf f) (initCg f).pos C A s rn H N M) {b : Nat} (hb : b ∈ f.allBbs) :
    phisOf s.f b = phisOf f b ∧ codeOf s.f b = H b ++ ex N M (codeOf f b) := by
  have := h.core.grown.code (b := b) hb (fun x hx => ?_) (fun n hn => ?_) (fun x hx n hn => ?_) (by simp)
  · rw [(init_code ht hb).1, (init_code ht hb).2] at this
    simpa using this
  · by_cases hxC : x ∈ C
    · rw [h.core.done x hxC]
    · rw [h.core.old x (init_live.2 (.inl (.inr (.inr ⟨b, hb, hx⟩)))) hxC, mapOps_op]
  · by_cases e : b = f.entry
    · subst e
      obtain ⟨⟨i, _, e⟩, _⟩ := h.core.resH n hn
      rw [e]
      simp [mkAssign]
    · rw [h.core.head b e] at hn
      cases hn
  · by_cases hxC : x ∈ C
    · rw [(h.core.copies x hxC).assign n hn]
      simp
    · rw [(h.core.none x hxC).1] at hn
      cases hn

/-- The lowered function is ready for `spill_array`, `spill_const` and `spill`. -/
theorem lower_ready (hr : Ready f R) (hn : Neat f R) (h : Lowd f R s.f (places s.pos) rn (rgOf f) H N M)
    (hl : Low (initCg f).f (rgOf f) (initCg f).pos C A s rn H N M) (hC : ∀ y, y ∈ C ↔ (∃ b ∈ R, y ∈ f.body b) ∧ (f.insn y).op = .call) : SpillReady s R 0 := by
  have bbs : s.f.allBbs = f.allBbs := hl.core.grown.allBbs
  have ht := hr.tidy
  have old : ∀ {b x}, b ∈ f.allBbs → x ∈ s.f.body b → (s.f.insn x).op ≠ .assign → x ∈ f.body b ∧ (s.f.insn x).op = (f.insn x).op ∧ (s.f.insn x).bb1 = (f.insn x).bb1 ∧
      (s.f.insn x).bb2 = (f.insn x).bb2 ∧ ((f.insn x).op ≠ .call → x ∉ C ∧ s.f.insn x = mapOps (renV rn) (f.insn x)) := by
    intro b x hb hx ho
    rcases hl.cases ht hC hb hx with ⟨h1, ⟨h2, h3⟩ | ⟨h2, h3⟩⟩ | ⟨v, h1⟩
    · exact ⟨h1, by rw [h3], by rw [h3], by rw [h3], fun hc => absurd ((hC x).1 h2).2 hc⟩
    · exact ⟨h1, by rw [h3, mapOps_op], by rw [h3]; rfl, by rw [h3]; rfl, fun _ => ⟨h2, h3⟩⟩
    · rw [h1] at ho; exact absurd rfl ho
  have ent : phisOf s.f s.f.entry = [] := by rw [h.entry, (h.body _ hr.flow.entry).1]; exact hr.entry
  refine ⟨hl.core.grown.tidy, fun y hy => ⟨fun x hx h1 => hl.core.cover y x hx (fun h => h) h1, hl.core.users (init_usersIn ht hr.users hn.fixed) y hy⟩,
    ⟨by rw [h.entry]; exact hr.flow.entry, by rw [h.succs]; exact hr.flow.succs, fun b hb x hx ho => ?_, fun b hb x hx ho => ?_, fun b hb pre z r e hc hnp => ?_⟩,
    fun b hb => by rw [bbs]; exact hr.blocks b hb, ent, fun b hb x hx => ?_, fun x hx ho => ?_, fun b hb x hx ho => ?_, fun x hx o ho => ?_, fun x hx ho => ?_,
    h.fresh hr (fun b hb => hn.front b (hr.blocks b hb)) hn.stored, Int.le_refl 0, fun x _ => ?_⟩
  · obtain ⟨h1, h2, h3, -⟩ := old (hr.blocks b hb) hx (by rw [ho]; simp)
    rw [h.succs, h3]
    exact hr.flow.ja b hb x h1 (by rw [← h2]; exact ho)
  · obtain ⟨h1, h2, h3, h4, -⟩ := old (hr.blocks b hb) hx (by intro e; rw [e] at ho; cases ho)
    rw [h.succs, h3, h4]
    exact hr.flow.cond b hb x h1 (by rw [← h2]; exact ho)
  · have hbb := hr.blocks b hb
    obtain ⟨h1, h2, -, -, h5⟩ := old hbb (x := z) (by rw [e]; simp) (by intro e; rw [e] at hc; cases hc)
    rw [h2] at hc hnp
    obtain ⟨h5, -⟩ := h5 (by intro e; rw [e] at hc; cases hc)
    have hzc : z ∈ codeOf f b := by
      rw [← phisOf_append f b] at h1
      rcases List.mem_append.1 h1 with hz | hz
      · exact absurd (phisOf_phi hz) hnp
      · exact hz
    obtain ⟨A, B, eA⟩ := List.append_of_mem hzc
    have eB : B = [] := hr.flow.last b hb (phisOf f b ++ A) z B (by rw [← phisOf_append f b, eA, List.append_assoc]) hc hnp
    subst eB
    have hat : s.f.body b = (phisOf f b ++ (H b ++ ex N M A)) ++ [z] := by
      rw [← phisOf_append s.f b, (hl.code ht hbb).1, (hl.code ht hbb).2, eA, ex_append, ex_cons, (hl.core.none z h5).1, (hl.core.none z h5).2]
      simp [ex]
    have hnd := hl.core.grown.tidy.nodup b (by rw [bbs]; exact hbb)
    have hz2 : z ∉ r := by rw [e] at hnd; exact (nodup_mid hnd).2
    rcases List.eq_nil_or_concat r with er | ⟨t, y, er⟩
    · exact er
    · exfalso
      have e3 : pre ++ z :: r = (pre ++ z :: t) ++ [y] := by rw [er]; simp
      rw [e, e3] at hat
      have := congrArg List.getLast? hat
      rw [List.getLast?_concat, List.getLast?_concat] at this
      apply hz2
      rw [er, ← Option.some.inj this]
      simp
  · rw [bbs] at hb
    intro ho
    obtain ⟨h1, h2, -⟩ := old hb (code_body hx) (by rw [ho]; simp)
    rw [h2] at ho
    rw [(hl.code ht hb).2] at hx
    have hxc : x ∈ codeOf f b := by
      rcases List.mem_append.1 hx with hx | hx
      · have h3 := hl.core.grown.newB b x (List.mem_append_left _ hx)
        have : x < f.next := ht.lt x (.inr (.inr ⟨b, hb, h1⟩))
        have : f.next + 10 ≤ x := h3
        omega
      · obtain ⟨y, hy, hx⟩ := List.mem_flatMap.1 hx
        have key : x ∈ N y ++ M y → False := fun hx => by
          have h3 := hl.core.grown.newI y x hx
          have : x < f.next := ht.lt x (.inr (.inr ⟨b, hb, h1⟩))
          have : f.next + 10 ≤ x := h3
          omega
        rcases List.mem_append.1 hx with hx | hx
        · exact (key (List.mem_append_left _ hx)).elim
        · rcases List.mem_cons.1 hx with rfl | hx
          · exact hy
          · exact (key (List.mem_append_right _ hx)).elim
    exact hn.front b hb x hxc ho
  · obtain ⟨b, hb, hx⟩ := hx
    rw [bbs] at hb
    obtain ⟨h1, h2, -, -, h5⟩ := old hb hx (by rcases ho with ho | ho <;> rw [ho] <;> simp)
    rw [h2] at ho
    obtain ⟨-, h5⟩ := h5 (by rcases ho with ho | ho <;> rw [ho] <;> simp)
    obtain ⟨a, r, e1, e2⟩ := hn.access x ⟨b, hb, h1⟩ ho
    have haL : Live f a := ht.closed x a (.inr (.inr ⟨b, hb, h1⟩)) (refs_pos.2 (by unfold operands; simp [e1]))
    have haC : a ∉ C := fun hc => by rw [((hC a).1 hc).2] at e2; cases e2
    refine ⟨a, r.map (renV rn), ?_, ?_⟩
    · rw [h5]
      show (f.insn x).vals.map (renV rn) = _
      rw [e1, List.map_cons]
      show Val.insn (rn a) :: _ = _
      rw [h.var a haL e2]
    · rw [hl.core.old a (init_live.2 (.inl haL)) haC, mapOps_op, init_insn (ht.lt a haL)]
      exact e2
  · rcases hl.cases ht hC (hr.blocks b hb) (code_body hx) with ⟨h1, ⟨h2, h3⟩ | ⟨h2, h3⟩⟩ | ⟨v, h1⟩
    · rw [h3]
    · rw [h3, mapOps_op] at ho
      rcases ho with ho | ho
      · exact absurd ((hC x).2 ⟨⟨b, hb, h1⟩, ho⟩) h2
      · have hxc : x ∈ codeOf f b := by
          rw [← phisOf_append f b] at h1
          rcases List.mem_append.1 h1 with hz | hz
          · rw [phisOf_phi hz] at ho; cases ho
          · exact hz
        rw [h3]
        show (f.insn x).vals.map (renV rn) = _
        rw [hn.raws b hb x hxc ho]
        rfl
    · rw [h1] at ho; simp [mkAssign] at ho
  · obtain ⟨b, hb, hx⟩ := hx
    rw [bbs] at hb ⊢
    rcases hl.cases ht hC hb hx with ⟨h1, ⟨h2, h3⟩ | ⟨h2, h3⟩⟩ | ⟨v, h1⟩
    · rw [h3] at ho
      exact hn.labels x ⟨b, hb, h1⟩ o ho
    · rw [h3] at ho
      simp only [mapOps] at ho
      split at ho
      · obtain ⟨p, hp, e⟩ := List.mem_map.1 ho
        subst e
        exact hn.labels x ⟨b, hb, h1⟩ p hp
      · exact hn.labels x ⟨b, hb, h1⟩ o ho
    · rw [h1] at ho; simp [mkAssign] at ho
  · obtain ⟨b, hb, hx⟩ := hx
    rw [bbs] at hb
    obtain ⟨h1, h2, -, -, h5⟩ := old hb hx (by rw [ho]; simp)
    rw [h2] at ho
    obtain ⟨-, h5⟩ := h5 (by rw [ho]; simp)
    rw [h5]
    show (f.insn x).vals.map (renV rn) = _
    rw [hn.phis x ⟨b, hb, h1⟩ ho]
    rfl
  · have : (s.pos x).spilled = 0 := by
      rcases hl.core.flat x with e | e | ⟨y, -, j, -, e⟩
      · rw [e]
        show (VrPos.spilled (if _ then _ else if _ then _ else _)) = 0
        split
        · rfl
        · split <;> rfl
      · rw [e]; rfl
      · rw [e]
    omega

end Verif.Cg
