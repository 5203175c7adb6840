import Verif.Compile.AllocSafe
/-!
# Colouring and coalescing do not crash
-/
namespace Verif.RA
open Verif

/-- The neighbours that are in registers are in r0 to r9. -/
def Below (s : St) : Prop := ∀ u, ∀ v ∈ (s.cg u).adj, ∀ r, (s.cg v).pos.inReg = some r → r < colors

theorem usedRegs_total {s : St} {l : List Nat} (h : ∀ x ∈ l, ∀ r, (s.cg x).pos.inReg = some r → r < colors) : ∃ u, usedRegs s l = .ok u := by
  unfold usedRegs
  dsimp only
  rw [if_neg]
  · exact ⟨_, rfl⟩
  · intro hc
    obtain ⟨r, hr, hc⟩ := List.any_eq_true.1 hc
    obtain ⟨x, hx, e⟩ := List.mem_filterMap.1 hr
    have := h x hx r e
    have hc : colors ≤ r := by simpa using hc
    omega

theorem Colored.below {s s' : St} {v : Nat} (h : Colored s s' v) (hb : Below s) : Below s' := by
  intro u x hx r hr
  rw [h.adj] at hx
  by_cases e : x = v
  · subst e
    cases ha : (s.cg x).pos.allocated with
    | true =>
      rw [h.kept ha] at hr
      exact hb u x hx r hr
    | false =>
      have := (h.reg ha).1
      rw [(inReg_some.1 hr).2.2] at this
      exact this
  · rw [h.other x e] at hr
    exact hb u x hx r hr

theorem colorOne_total {s : St} {v : Nat} (h : Below s) : colorOne s v = .err ∨ ∃ s', colorOne s v = .ok s' := by
  unfold colorOne
  split
  · exact .inr ⟨_, rfl⟩
  · obtain ⟨u, e⟩ := usedRegs_total (h v)
    rw [e, Out.ok_bind]
    split
    · exact .inr ⟨_, rfl⟩
    · exact .inl rfl

theorem colorAll_total : ∀ (l : List Nat) (s : St), Below s → (colorAll l s = .err ∨ ∃ s', colorAll l s = .ok s') ∧ ∀ s', colorAll l s = .ok s' → Below s'
  | [], s, h => ⟨.inr ⟨s, rfl⟩, fun s' e => by cases e; exact h⟩
  | v :: l, s, h => by
    unfold colorAll
    rcases colorOne_total h (v := v) with e | ⟨s1, e⟩
    · rw [e]
      exact ⟨.inl rfl, fun s' e => by cases e⟩
    · rw [e, Out.ok_bind]
      exact colorAll_total l s1 ((colorOne_ok e).below h)

end Verif.RA

namespace Verif.Compile
open Verif Verif.IR Verif.Edit Verif.Cg
open Verif.Loc (hasResult)
open Verif.Norm (VrPos Reg Op)

theorem coalesce_total {s : RA.St} {a b : Nat} (hb : RA.Below s) (hal : ∀ u, ∀ v ∈ (s.cg u).adj, (s.cg v).pos.allocated = true)
    (ha : (s.cg a).fin = true → (s.cg a).pos.spilled = 0 → (s.cg a).pos.reg < RA.colors) (hbb : (s.cg b).fin = true → (s.cg b).pos.spilled = 0 → (s.cg b).pos.reg < RA.colors) :
    ∃ s', RA.coalesce s a b = .ok s' := by
  unfold RA.coalesce
  dsimp only
  split
  · rename_i hsp
    rw [if_neg]
    · obtain ⟨u, e⟩ := RA.usedRegs_total (s := s) (l := (s.cg a).adj ++ (s.cg b).adj) (fun x hx => (List.mem_append.1 hx).elim (hb a x) (hb b x))
      rw [e, Out.ok_bind]
      split
      · rename_i hf
        rw [if_neg (by have := ha hf hsp.1; omega)]
        split <;> exact ⟨_, rfl⟩
      · split
        · rename_i hf
          rw [if_neg (by have := hbb hf hsp.2.1; omega)]
          split <;> exact ⟨_, rfl⟩
        · split <;> exact ⟨_, rfl⟩
    · intro hc
      obtain ⟨x, hx, hc⟩ := List.any_eq_true.1 hc
      have := (List.mem_append.1 hx).elim (hal a x) (hal b x)
      rw [this] at hc
      cases hc
  · exact ⟨_, rfl⟩

theorem Moves.below {s s' : RA.St} (h : Moves s s') (hb : RA.Below s) : RA.Below s' := by
  intro u v hv r hr
  rw [h.adj] at hv
  obtain ⟨h1, h2, h3⟩ := RA.inReg_some.1 hr
  rcases h.reg v with e | e
  · rw [h.alloc] at h1
    rw [h.spilled] at h2
    rw [e] at h3
    exact hb u v hv r (RA.inReg_some.2 ⟨h1, h2, h3⟩)
  · rw [h3] at e
    exact e

theorem coalescing_total : ∀ (l : List (Nat × Nat)) (s : RA.St), RA.Below s → (∀ u, ∀ v ∈ (s.cg u).adj, (s.cg v).pos.allocated = true) →
    (∀ p ∈ l, ¬ ((s.cg p.1).fin = true ∧ (s.cg p.2).fin = true)) →
    (∀ p ∈ l, ∀ z, z = p.1 ∨ z = p.2 → (s.cg z).fin = true → (s.cg z).pos.spilled = 0 → (s.cg z).pos.reg < RA.colors) → ∃ s', RA.coalescing l s = .ok s'
  | [], s, _, _, _, _ => ⟨s, rfl⟩
  | (a, b) :: l, s, hb, hal, hf, hr => by
    obtain ⟨s1, e⟩ := coalesce_total (a := a) (b := b) hb hal (hr (a, b) (by simp) a (.inl rfl)) (hr (a, b) (by simp) b (.inr rfl))
    have mm := coalesce_moves e (hf (a, b) (by simp))
    unfold RA.coalescing
    rw [e, Out.ok_bind]
    refine coalescing_total l s1 (mm.below hb) (fun u v hv => ?_) (fun p hp => ?_) (fun p hp z hz h1 h2 => ?_)
    · rw [mm.adj] at hv
      rw [mm.alloc]
      exact hal u v hv
    · rw [mm.fin, mm.fin]
      exact hf p (by simp [hp])
    · rw [mm.fin] at h1
      rw [mm.kept z h1] at h2 ⊢
      exact hr p (by simp [hp]) z hz h1 h2

variable {L : Bool × Bool} {s : Cg} {R : List Nat} {rg : Nat → Nat} {d : BitVec 16} {off : Int}

/-- The frame pointer is not copied. -/
theorem copies_sp (h : Holds s R rg d off) : ∀ p ∈ copiesOf s.f R, p.1 ≠ s.f.sp ∧ p.2 ≠ s.f.sp := by
  rintro ⟨a, y⟩ hp
  unfold copiesOf at hp
  obtain ⟨x, hx, e⟩ := List.mem_filterMap.1 hp
  obtain ⟨b, hb, hx⟩ := List.mem_flatMap.1 hx
  have hxR : InR s.f R x := ⟨b, hb, hx⟩
  have ok := h.shape.insn x hxR
  have nsp : x ≠ s.f.sp := (h.ready.tidy.fixed b (h.ready.sub b hb) x hx).1
  have opd : ∀ z, .insn z ∈ operands (s.f.insn x) → (s.f.insn x).op = .assign ∨ (s.f.insn x).op = .store → z ≠ s.f.sp := fun z hz ho e => by
    rcases ok.form with h1 | h1 | h1
    · rw [refs_eq] at h1
      rw [e] at hz
      have := List.count_pos_iff.2 hz
      omega
    · rcases h1 with h1 | h1 <;> rcases ho with ho | ho <;> rw [ho] at h1 <;> cases h1
    · rename_i h3 _ _
      rcases ho with ho | ho <;> rw [ho] at h3 <;> cases h3
  have var : ∀ z r, (s.f.insn x).op = .load ∨ (s.f.insn x).op = .store → (s.f.insn x).vals = .insn z :: r → z ≠ s.f.sp := fun z r ho hv e => by
    obtain ⟨a', r', k1, k2⟩ := h.ready.access x (hxR.inBody h.ready.sub) ho
    rw [hv] at k1
    cases k1
    rw [e, h.fixed.1] at k2
    cases k2
  split at e
  · rename_i ho hv
    cases e
    exact ⟨nsp, opd y (by unfold operands; rw [hv]; simp) (.inl ho)⟩
  · rename_i ho hv
    cases e
    exact ⟨var a _ (.inr ho) hv, opd y (by unfold operands; rw [hv]; simp) (.inr ho)⟩
  · rename_i ho hv
    cases e
    exact ⟨nsp, var y _ (.inl ho) hv⟩
  · cases e

/-- Colouring ends with registers or the error that there are too few; coalescing ends. -/
theorem color_safe {s0 : Cg} {off0 : Int} {al : Allocated} {P : Nat → Prop} (h : Rounds s0 off0 R rg d al) (hg : Graph al.s.f) (ht : Solid L P R al.s.f) (hl : Loose al.s R rg)
    (hall : ∀ b ∈ al.s.f.allBbs, b ∈ R) {rk : Nat → Nat} (hr : Live.Falling al.s.f rk) : Safe (RA.coloring al.ra) ∧ ∀ c, RA.coloring al.ra = .ok c → ∃ m, RA.coalescing (copiesOf al.s.f R) c = .ok m := by
  obtain ⟨l, s1, e1, hsg, hperm⟩ := h.last
  obtain ⟨l', s1', e1', hadj⟩ := analyse_total h.holds hg ht.toSteady hall hr
  rw [e1] at e1'
  cases e1'
  have hpos : ∀ v, (al.ra.cg v).pos = ((raOf R rg al.s).cg v).pos ∧ (al.ra.cg v).fin = ((raOf R rg al.s).cg v).fin := fun v => by
    obtain ⟨l0, -, h2⟩ := Out.bind_eq_ok.1 e1
    obtain ⟨c, -, h4⟩ := Out.bind_eq_ok.1 h2
    obtain ⟨s0, h5, h6⟩ := Out.bind_eq_ok.1 h4
    cases h6
    exact ⟨(hsg.pos v).trans ((RA.conflicts_same h5).pos v), (hsg.fin v).trans ((RA.conflicts_same h5).fin v)⟩
  have below : ∀ v, v ≠ al.s.f.sp → (al.s.pos v).allocated = true → (al.s.pos v).spilled = 0 → (al.s.pos v).reg.val < RA.colors := fun v hv h1 h2 => by
    have h3 := (al.s.pos v).reg.isLt
    have h4 : (al.s.pos v).reg.val ≠ 10 := fun e => hv (h.holds.pos.r10 v h1 h2 (Fin.ext e))
    unfold RA.colors
    omega
  have nsp : ∀ u, ∀ v ∈ (al.ra.cg u).adj, v ≠ al.s.f.sp := fun u v hv => by
    rw [hsg.adj] at hv
    rcases mem_allVar.1 (hadj u v hv) with ⟨i, hi, e⟩ | ⟨⟨b, hb, hx⟩, -, -⟩
    · rw [e]; exact h.holds.rg_sp hi
    · exact (h.holds.ready.tidy.fixed b (h.holds.ready.sub b hb) v hx).1
  have hb0 : RA.Below al.ra := fun u v hv r hr' => by
    obtain ⟨h1, h2, h3⟩ := RA.inReg_some.1 hr'
    rw [(hpos v).1] at h1 h2 h3
    rw [← h3]
    exact below v (nsp u v hv) h1 h2
  obtain ⟨k1, k2⟩ := RA.colorAll_total al.ra.seo al.ra hb0
  refine ⟨k1, fun c hc => ?_⟩
  obtain ⟨dd, -⟩ := RA.colorAll_ok hc
  refine coalescing_total _ c (k2 c hc) (fun u v hv => ?_) (fun p hp => ?_) (fun p hp z hz h1 h2 => ?_)
  · rw [dd.adj, hsg.adj] at hv
    exact dd.alloc v (hperm.mem_iff.2 (hadj u v hv))
  · rw [dd.fin, dd.fin, (hpos _).2, (hpos _).2]
    exact notFixed_of h.holds hl p hp
  · have hzs : z ≠ al.s.f.sp := by
      rcases hz with e | e <;> rw [e]
      · exact (copies_sp h.holds p hp).1
      · exact (copies_sp h.holds p hp).2
    rw [dd.fin, (hpos _).2] at h1
    have h1 : (al.s.pos z).allocated = true := h1
    rw [dd.kept z (by rw [(hpos z).1]; exact h1), (hpos z).1] at h2 ⊢
    exact below z hzs h1 h2

end Verif.Compile
