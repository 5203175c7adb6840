import Verif.Compile.SpillStep
/-!
# Lowering, arrays and constants give the form of the instructions
-/
namespace Verif.Compile
open Verif Verif.IR Verif.Edit Verif.Cg
open Verif.RemPhi (All2)
open Verif.Loc (phisOf_append phisOf_phi hasResult)
open Verif.Norm (VrPos Reg Op)

/-- Assignments are in the form that code generation can handle. -/
theorem insnOk_assign {op : Nat → Op} {sp : Nat} {d : BitVec 16} {v : Val} (h1 : ∀ y, v = .insn y → PlainVal op sp y)
    (h2 : ∀ k c t b, v = .const k c t b → k = .plain) : InsnOk op sp d (mkAssign v) := by
  have hm : ∀ {w}, w ∈ operands (mkAssign v) → w = v := fun {w} hw => by simpa [operands, mkAssign, raw] using hw
  refine ⟨by simp [mkAssign], fun y hy e => absurd e (h1 y (hm hy).symm).1, fun y hy e => absurd e (h1 y (hm hy).symm).2.1, by simp [mkAssign], by simp [mkAssign, raw],
    by simp [mkAssign], .other ?_ ⟨fun w hw k c ct b e => h2 k c ct b (by rw [← hm hw]; exact e), by simp [mkAssign, raw]⟩⟩
  refine Nat.eq_zero_of_not_pos fun hp => ?_
  exact (h1 sp (hm (refs_pos.1 hp)).symm).2.2 rfl

theorem all2_put {α : Type} {P : α → α → Prop} (hP : ∀ a, P a a) {w : α} : ∀ {l : List α} {j : Nat} {v : α}, l[j]? = some v → P v w → All2 P l (l.set j w)
  | a :: l, 0, v, h, hw => by
    cases h
    exact .cons hw (all2_refl hP l)
  | a :: l, j + 1, v, h, hw => .cons (hP a) (all2_put hP h hw)

theorem const_holds {s s' : Cg} {R : List Nat} {rg : Nat → Nat} {d : BitVec 16} {off : Int} (h : Holds s R rg d off) (hR : R.Nodup)
    (e : spillConst R s = .ok s') : Holds s' R rg d off := by
  have hB := h.ready.base
  obtain ⟨s1, e1, hr', -⟩ := C53_const h.ready hR
  rw [e] at e1
  cases e1
  obtain ⟨s1, N, e1, hI⟩ := CInv.loop hB (R.flatMap s.f.body) s _ _ (CInv.start hB s.pos) (fun x hx => by
    obtain ⟨b, hb, hx⟩ := List.mem_flatMap.1 hx
    exact ⟨⟨b, hB.sub b hb, hx⟩, fun h => h⟩) (nodup_bodies hB.tidy hB.sub hR)
  have : spillConst R s = constsToRegs (R.flatMap s.f.body) s := rfl
  rw [this, e1] at e
  cases e
  have hsub := h.ready.sub
  have hlt : ∀ {x}, InBody s.f x → x < s.f.next := fun hx => h.ready.tidy.lt _ (.inr (.inr hx))
  have hsp : s'.f.sp = s.f.sp := hI.grown.sp
  have hentR : s.f.entry ∈ R := h.ready.flow.entry
  have hspl : s.f.sp < s.f.next := h.ready.tidy.lt _ (.inl rfl)
  have stay : ∀ {x}, InR s.f R x → InR s'.f R x := fun ⟨b, hb, hx⟩ => ⟨b, hb, hI.grown.stay (hsub b hb) hx⟩
  have opL : ∀ {x}, x < s.f.next → ops s'.f x = ops s.f x := fun hx => (hI.op hx).1
  have opD : ∀ {y}, Dom s.f R rg y → ops s'.f y = ops s.f y := by
    rintro y (e2 | ⟨i, hi, e2⟩ | e2)
    · rw [e2]; exact opL hspl
    · rw [e2]; exact opL (h.ready.tidy.lt _ (.inr (.inl (h.regs i hi))))
    · exact opL (hlt (e2.1.inBody hsub))
  have domS : ∀ {y}, Dom s.f R rg y → Dom s'.f R rg y := by
    rintro y (e2 | e2 | e2)
    · exact .inl (by rw [hsp]; exact e2)
    · exact .inr (.inl e2)
    · exact .inr (.inr ⟨stay e2.1, by rw [opL (hlt (e2.1.inBody hsub))]; exact e2.2⟩)
  have plainN : ∀ {n}, s.f.next ≤ n → n < s'.f.next → PlainVal (ops s'.f) s'.f.sp n := by
    intro n h1 h2
    obtain ⟨v, e2, -⟩ := hI.new n h1 h2
    have : ops s'.f n = .assign := by unfold ops; rw [e2]; rfl
    exact ⟨by rw [this]; simp, by rw [this]; simp, by omega⟩
  have resN : ∀ {n}, s.f.next ≤ n → n < s'.f.next → hasResult (ops s'.f n) = true := by
    intro n h1 h2
    obtain ⟨v, e2, -⟩ := hI.new n h1 h2
    have : ops s'.f n = .assign := by unfold ops; rw [e2]; rfl
    rw [this]; rfl
  have inN : ∀ {b x n}, b ∈ R → x ∈ codeOf s.f b → n ∈ N x → n ∈ s'.f.body b := by
    intro b x n hb hx hn
    rw [hI.grown.body _ (hsub _ hb)]
    refine List.mem_append_right _ (List.mem_append_right _ (List.mem_append_left _ ?_))
    unfold ex
    exact List.mem_flatMap.2 ⟨x, hx, List.mem_append_left _ hn⟩
  have old : ∀ b ∈ R, ∀ x ∈ s.f.body b, Subst (ops s'.f) s'.f.sp (s.f.insn x) (s'.f.insn x) ∧
      (∀ y, .insn y ∈ operands (s'.f.insn x) → .insn y ∈ operands (s.f.insn x) ∨ (InR s'.f R y ∧ hasResult (ops s'.f y) = true)) := by
    intro b hb x hx
    rcases hI.cases (hlt ⟨b, hsub b hb, hx⟩) with ⟨e2, -⟩ | ⟨j, n, -, hu, eN, n1, n2, -, e2⟩
    · rw [e2]
      exact ⟨⟨rfl, rfl, rfl, rfl, all2_refl (fun _ => .same _) _, all2_refl (fun _ => .same _) _, .same _, fun _ => rfl⟩, fun y hy => .inl hy⟩
    · have hxc : x ∈ codeOf s.f b := by
        rw [← phisOf_append s.f b] at hx
        rcases List.mem_append.1 hx with hx | hx
        · exact absurd (phisOf_phi hx) hu.notPhi.1
        · exact hx
      have hnR : InR s'.f R n := ⟨b, hb, inN hb hxc (by rw [eN]; exact List.mem_singleton.2 rfl)⟩
      have hadd : (s.f.insn x).op ≠ .add := by
        intro ea
        cases hu with
        | alu h1 h2 _ => rw [ea] at h2; simp at h2
        | jmp h1 _ => rw [ea] at h1; cases h1
      obtain ⟨k, c, t, bb, ev⟩ := hu.const
      rw [e2]
      refine ⟨⟨rfl, rfl, rfl, rfl, ?_, all2_refl (fun _ => .same _) _, .same _, fun _ => rfl⟩, fun y hy => ?_⟩
      · exact all2_put (fun _ => .same _) ev (.const k c t bb n hadd (plainN n1 n2))
      · unfold fitted operands at hy
        unfold operands
        dsimp only at hy
        simp only [List.mem_append] at hy ⊢
        rcases hy with (hy | hy) | hy
        · rcases List.mem_or_eq_of_mem_set hy with hy | hy
          · exact .inl (.inl (.inl hy))
          · cases hy; exact .inr ⟨hnR, resN n1 n2⟩
        · exact .inl (.inl (.inr hy))
        · exact .inl (.inr hy)
  have newC : ∀ {x}, s.f.next ≤ x → x < s'.f.next → InR s'.f R x → ∃ v, s'.f.insn x = mkAssign v ∧ ∃ k c t bb, v = .const k c t bb ∧ k = .plain := by
    intro x h1 h2 ⟨b, hb, hx⟩
    rcases Grown.mem hI.grown (hsub b hb) hx with hx | hx | hx | ⟨y, hy, hx⟩
    · have := hlt ⟨b, hsub b hb, hx⟩; omega
    · cases hx
    · cases hx
    · have hyb : y ∈ s.f.body b := by rw [← phisOf_append s.f b]; exact List.mem_append_right _ hy
      rw [List.append_nil] at hx
      rcases hI.cases (hlt ⟨b, hsub b hb, hyb⟩) with ⟨-, e2⟩ | ⟨j, n, -, hu, eN, n1, n2, e3, -⟩
      · rw [e2] at hx; cases hx
      · rw [eN] at hx
        cases List.mem_singleton.1 hx
        obtain ⟨k, c, t, bb, ev⟩ := hu.const
        have : (s.f.insn y).vals.getD j .undef = .const k c t bb := by rw [List.getD_eq_getElem?_getD, ev]; rfl
        rw [this] at e3
        refine ⟨_, e3, k, c, t, bb, rfl, ?_⟩
        have hin : Val.const k c t bb ∈ operands (s.f.insn y) := by
          unfold operands
          exact List.mem_append_left _ (List.mem_append_left _ (List.mem_of_getElem? ev))
        cases (h.shape.insn y ⟨b, hb, hyb⟩).form with
        | other _ h4 => exact h4.1 _ hin k c t bb rfl
        | access h4 => rcases h4 with h4 | h4
                       · exact absurd h4 hu.notPhi.2.1
                       · exact absurd h4 hu.notPhi.2.2
        | add _ _ _ h4 _ _ =>
          cases hu with
          | alu _ h5 _ => rw [h4] at h5; simp at h5
          | jmp h5 _ => rw [h4] at h5; cases h5
  have cases : ∀ {b x}, b ∈ R → x ∈ s'.f.body b → x ∈ s.f.body b ∨ (s.f.next ≤ x ∧ x < s'.f.next) := fun hb hx => hI.mem (hsub _ hb) hx
  have posC : ∀ x, s'.pos x = s.pos x ∨ s'.pos x = noPos := by
    intro x
    by_cases x1 : x < s.f.next
    · exact .inl (hI.pos x x1)
    · by_cases x2 : x < s'.f.next
      · exact .inr (hI.posN x (by omega) x2)
      · exact .inl (hI.far x (by omega))
  refine ⟨hr', ⟨fun x ⟨b, hb, hx⟩ => ?_, fun x ⟨b, hb, hx⟩ y hy => ?_, fun x ⟨b, hb, hx⟩ hop o ho' => ?_⟩,
    ⟨fun i hi => ?_, ?_, fun x hx => ?_, fun x h1 h2 h3 => ?_, fun x hx => ?_, fun x hx => ?_, fun x y hxy hx hy => ?_⟩, fun x ⟨b, hb, hx⟩ hop => ?_, ?_, ?_, fun x ⟨b, hb, hx⟩ hop hal => ?_, ?_⟩
  · rcases cases hb hx with hx1 | ⟨h1, h2⟩
    · refine InsnOk.subst ?_ (old b hb x hx1).1
      rw [hsp]
      exact (h.shape.insn x ⟨b, hb, hx1⟩).congr fun y hy => opD (h.shape.dom x ⟨b, hb, hx1⟩ y hy)
    · obtain ⟨v, e2, k, c, t, bb, e3, hk⟩ := newC h1 h2 ⟨b, hb, hx⟩
      rw [e2, e3]
      exact insnOk_assign (by simp) (fun k' c' t' b' e4 => by cases e4; exact hk)
  · rcases cases hb hx with hx1 | ⟨h1, h2⟩
    · rcases (old b hb x hx1).2 y hy with h1 | h1
      · exact domS (h.shape.dom x ⟨b, hb, hx1⟩ y h1)
      · exact .inr (.inr h1)
    · obtain ⟨v, e2, k, c, t, bb, e3, hk⟩ := newC h1 h2 ⟨b, hb, hx⟩
      rw [e2, e3] at hy
      simp [operands, mkAssign, raw] at hy
  · rcases cases hb hx with hx1 | ⟨h1, h2⟩
    · obtain ⟨h3, -, -, h4⟩ := hI.op (hlt ⟨b, hsub b hb, hx1⟩)
      rw [h4] at ho'
      exact h.shape.labels x ⟨b, hb, hx1⟩ (by rw [← h3]; exact hop) o ho'
    · obtain ⟨v, e2, -⟩ := newC h1 h2 ⟨b, hb, hx⟩
      rw [e2] at hop; cases hop
  · rw [hI.pos _ (h.ready.tidy.lt _ (.inr (.inl (h.regs i hi))))]; exact h.pos.rg i hi
  · rw [hsp, hI.pos _ hspl]; exact h.pos.sp
  · rcases posC x with e2 | e2 <;> rw [e2] at hx ⊢
    · exact h.pos.free x hx
    · rfl
  · rcases posC x with e2 | e2 <;> rw [e2] at h1 h2 h3
    · rw [hsp]; exact h.pos.r10 x h1 h2 h3
    · cases h1
  · rcases posC x with e2 | e2 <;> rw [e2] at hx ⊢
    · exact h.pos.neg x hx
    · exact absurd rfl hx
  · rcases posC x with e2 | e2 <;> rw [e2] at hx
    · obtain ⟨k1, k2⟩ := h.pos.stack x hx
      rw [opL (hlt k1)]
      refine ⟨?_, k2⟩
      obtain ⟨b, hb, hx⟩ := k1
      exact ⟨b, by rw [hI.grown.allBbs]; exact hb, hI.grown.stay hb hx⟩
    · exact absurd rfl hx
  · rcases posC x with e2 | e2 <;> rw [e2] at hx ⊢
    · rcases posC y with e3 | e3 <;> rw [e3] at hy ⊢
      · exact h.pos.apart x y hxy hx hy
      · exact absurd rfl hy
    · exact absurd rfl hx
  · rcases cases hb hx with hx1 | ⟨h1, h2⟩
    · have hxl := hlt ⟨b, hsub b hb, hx1⟩
      rw [hI.pos x hxl]
      exact h.arrays x ⟨b, hb, hx1⟩ (by rw [← (hI.op hxl).1]; exact hop)
    · obtain ⟨v, e2, -⟩ := newC h1 h2 ⟨b, hb, hx⟩
      rw [e2] at hop; cases hop
  · refine early_grown hI.grown hsub hentR h.ready.entry h.early (fun a ⟨b, hb, ha⟩ hop hfree => ?_) (fun x hx a ha hop hz => ?_) (fun x hx hxn a ha hop hA => ?_)
    · rcases cases hb ha with hx1 | ⟨h1, h2⟩
      · have hxl := hlt ⟨b, hsub b hb, hx1⟩
        rw [hI.pos a hxl] at hfree
        exact ⟨⟨b, hb, hx1⟩, by rw [← (hI.op hxl).1]; exact hop, hfree⟩
      · obtain ⟨v, e2, -⟩ := newC h1 h2 ⟨b, hb, ha⟩
        rw [e2] at hop; cases hop
    · refine Nat.eq_zero_of_not_pos fun hp => ?_
      have := refs_pos.2 ((old _ hentR x hx).1.memS (fun hpl => hpl.1 (by rw [opL (hlt (ha.inBody hsub))]; exact hop)) (refs_pos.1 hp))
      omega
    · have hx' : InR s'.f R x := ⟨_, hentR, hx⟩
      rcases cases hentR hx with hx1 | ⟨h1, h2⟩
      · have := hlt ⟨_, hsub _ hentR, hx1⟩; omega
      · obtain ⟨v, e2, k, c, t, bb, e3, hk⟩ := newC h1 h2 hx'
        rw [e2, e3]
        simp [refs_eq, operands, mkAssign, raw]
  · intro i hi
    rw [hI.grown.args]; exact h.regs i hi
  · rcases cases hb hx with hx1 | ⟨h1, h2⟩
    · have hxl := hlt ⟨b, hsub b hb, hx1⟩
      rw [hI.pos x hxl] at hal ⊢
      exact h.vars x ⟨b, hb, hx1⟩ (by rw [← (hI.op hxl).1]; exact hop) hal
    · obtain ⟨v, e2, -⟩ := newC h1 h2 ⟨b, hb, hx⟩
      rw [e2] at hop; cases hop
  · refine ⟨?_, fun i hi => ?_⟩
    · have := opL hspl
      unfold ops at this
      rw [hsp, this]; exact h.fixed.1
    · have := opL (h.ready.tidy.lt _ (.inr (.inl (h.regs i hi))))
      unfold ops at this
      rw [this]; exact h.fixed.2 i hi

end Verif.Compile
