import Verif.Compile.Place
/-!
# Registers and slots after colouring and coalescing
-/
namespace Verif.Compile
open Verif Verif.IR Verif.Edit Verif.Cg
open Verif.Loc (places hasResult RegsKept)
open Verif.Norm (VrPos Reg Op)

theorem regPos_eq (m : RA.St) : regPos m = Loc.posIn m := rfl

/-! ## Coalescing -/

/-- What coalescing does not change, whatever it merges. -/
structure Moves (s s' : RA.St) : Prop where
  adj : ∀ x, (s'.cg x).adj = (s.cg x).adj
  fin : ∀ x, (s'.cg x).fin = (s.cg x).fin
  kept : ∀ x, (s.cg x).fin = true → (s'.cg x).pos = (s.cg x).pos
  alloc : ∀ x, (s'.cg x).pos.allocated = (s.cg x).pos.allocated
  spilled : ∀ x, (s'.cg x).pos.spilled = (s.cg x).pos.spilled
  reg : ∀ x, (s'.cg x).pos.reg = (s.cg x).pos.reg ∨ (s'.cg x).pos.reg < RA.colors

theorem Moves.rfl' (s : RA.St) : Moves s s := ⟨fun _ => rfl, fun _ => rfl, fun _ _ => rfl, fun _ => rfl, fun _ => rfl, fun _ => .inl rfl⟩

theorem Moves.trans {a b c : RA.St} (h : Moves a b) (k : Moves b c) : Moves a c := by
  refine ⟨fun x => (k.adj x).trans (h.adj x), fun x => (k.fin x).trans (h.fin x), fun x hx => ?_,
    fun x => (k.alloc x).trans (h.alloc x), fun x => (k.spilled x).trans (h.spilled x), fun x => ?_⟩
  · rw [k.kept x (by rw [h.fin]; exact hx), h.kept x hx]
  · rcases k.reg x with e | e
    · rw [e]; exact h.reg x
    · exact .inr e

theorem moves_one {s : RA.St} {v r : Nat} (hf : (s.cg v).fin = false) (hr : r < RA.colors) : Moves s (RA.setReg s v r) := by
  refine ⟨?_, ?_, ?_, ?_, ?_, ?_⟩
  · intro x; simp only [RA.setReg_cg]; split <;> rfl
  · intro x; simp only [RA.setReg_cg]; split <;> rfl
  · intro x hx
    have : x ≠ v := by rintro rfl; rw [hf] at hx; cases hx
    simp [RA.setReg_cg, this]
  · intro x; simp only [RA.setReg_cg]; split <;> rfl
  · intro x; simp only [RA.setReg_cg]; split <;> rfl
  · intro x
    simp only [RA.setReg_cg]
    split
    · exact .inr hr
    · exact .inl rfl

theorem coalesce_moves {s s' : RA.St} {v1 v2 : Nat} (h : RA.coalesce s v1 v2 = .ok s') (hfin : ¬ ((s.cg v1).fin = true ∧ (s.cg v2).fin = true)) : Moves s s' := by
  unfold RA.coalesce at h
  dsimp only at h
  split at h
  · split at h
    · cases h
    · obtain ⟨u, -, h2⟩ := Out.bind_eq_ok.1 h
      cases hf1 : (s.cg v1).fin with
      | true =>
        have hf2 : (s.cg v2).fin = false := by
          cases h3 : (s.cg v2).fin with
          | true => exact absurd ⟨hf1, h3⟩ hfin
          | false => rfl
        simp only [hf1, if_true] at h2
        split at h2
        · cases h2
        · rename_i hlt
          split at h2
          · cases h2; exact .rfl' _
          · cases h2
            exact moves_one hf2 (by omega)
      | false =>
        simp only [hf1, Bool.false_eq_true, if_false] at h2
        cases hf2 : (s.cg v2).fin with
        | true =>
          simp only [hf2, if_true] at h2
          split at h2
          · cases h2
          · split at h2
            · cases h2; exact .rfl' _
            · cases h2
              exact moves_one hf1 (by omega)
        | false =>
          simp only [hf2, Bool.false_eq_true, if_false] at h2
          split at h2
          · rename_i r hr
            cases h2
            have hfr := RA.freeReg_some hr
            have m1 := moves_one hf1 hfr.1
            exact m1.trans (moves_one (by rw [m1.fin]; exact hf2) hfr.1)
          · cases h2; exact .rfl' _
  · cases h; exact .rfl' _

theorem coalescing_moves : ∀ {l : List (Nat × Nat)} {s s' : RA.St}, RA.coalescing l s = .ok s' →
    (∀ c ∈ l, ¬ ((s.cg c.1).fin = true ∧ (s.cg c.2).fin = true)) → Moves s s'
  | [], s, s', h, _ => by cases h; exact .rfl' _
  | (a, b) :: l, s, s', h, hl => by
    obtain ⟨s1, h1, h2⟩ := Out.bind_eq_ok.1 h
    have m := coalesce_moves h1 (hl (a, b) (by simp))
    refine m.trans (coalescing_moves h2 fun c hc => ?_)
    rw [m.fin, m.fin]
    exact hl c (by simp [hc])

/-- Coalescing looks at no copy between two values that had their places before. -/
def NotFixed (s : RA.St) (copies : List (Nat × Nat)) : Prop := ∀ p ∈ copies, ¬ ((s.cg p.1).fin = true ∧ (s.cg p.2).fin = true)

theorem seated_of {s0 : Cg} {off0 : Int} {R : List Nat} {rg : Nat → Nat} {d : BitVec 16} {al : Allocated} {c m : RA.St} (h : Rounds s0 off0 R rg d al)
    (hg : Graph s0.f) (hc : RA.coloring al.ra = .ok c) (hm : RA.coalescing (copiesOf al.s.f R) c = .ok m)
    (hfix : NotFixed (raOf R rg al.s) (copiesOf al.s.f R)) : Seated al.s R (regPos m) ∧ (∀ v, ((raOf R rg al.s).cg v).fin = true → (m.cg v).pos = ((raOf R rg al.s).cg v).pos) ∧
      (∀ v, ((raOf R rg al.s).cg v).pos.allocated = false → (m.cg v).pos.allocated = true → ∃ r, (m.cg v).pos.inReg = some r ∧ r < 10) ∧
      (∀ x, (m.cg x).adj = (al.ra.cg x).adj) := by
  obtain ⟨l, s1, hl, hsg, hperm⟩ := h.last
  obtain ⟨reqs, h1, h2⟩ := Loc.analyse_reqs_ok (h.holds.liveOk (h.frame.graph hg)) hl
  have hst := h.holds.start
  have hfin : ∀ v, ((raOf R rg al.s).cg v).fin = ((raOf R rg al.s).cg v).pos.allocated := fun _ => rfl
  have hcol := RA.coloring_same hst h1 hsg hc
  have sp0 := RA.conflicts_same h1
  obtain ⟨dd, -⟩ := RA.colorAll_ok hc
  have fin2 : ∀ v, (c.cg v).fin = ((raOf R rg al.s).cg v).fin := fun v => ((dd.fin v).trans (hsg.fin v)).trans (sp0.fin v)
  have mm := coalescing_moves hm (fun p hp => by rw [fin2, fin2]; exact hfix p hp)
  have kept : ∀ v, ((raOf R rg al.s).cg v).fin = true → (m.cg v).pos = ((raOf R rg al.s).cg v).pos := by
    intro v hv
    rw [mm.kept v (by rw [fin2]; exact hv), hcol.2.1 v (by rw [← hfin]; exact hv)]
  have hco3 : ∀ v, ((raOf R rg al.s).cg v).pos.allocated = false → (m.cg v).pos.allocated = true → ∃ r, (m.cg v).pos.inReg = some r ∧ r < 10 := by
    intro v h1 h2
    rw [mm.alloc] at h2
    obtain ⟨r, h3, h4⟩ := hcol.2.2.2 v h1 h2
    refine ⟨(m.cg v).pos.reg, RA.inReg_some.2 ⟨by rw [mm.alloc]; exact h2, ?_, rfl⟩, ?_⟩
    · rw [mm.spilled]; exact (RA.inReg_some.1 h3).2.1
    · rcases mm.reg v with e | e
      · rw [e, (RA.inReg_some.1 h3).2.2]; exact h4
      · exact e
  refine ⟨⟨fun x => ?_, fun x hx => ?_, fun x h3 h4 => ?_, fun x hx hres => ?_⟩, kept, hco3, fun x => (mm.adj x).trans (dd.adj x)⟩
  · show (m.cg x).pos.spilled = _
    rw [mm.spilled, dd.spilled, hsg.pos, sp0.pos]
    rfl
  · have h3 : Loc.posIn m x = Loc.posIn (raOf R rg al.s) x := by
      unfold Loc.posIn
      rw [kept x hx]
    rw [regPos_eq, h3, posIn_raOf]
  · obtain ⟨r, h5, h6⟩ := hco3 x h3 h4
    obtain ⟨-, h7, h8⟩ := RA.inReg_some.1 h5
    refine ⟨h7, ?_⟩
    show (Fin.ofNat 11 (m.cg x).pos.reg).val < 10
    rw [h8, Fin.val_ofNat]
    exact Nat.lt_of_le_of_lt (Nat.mod_le _ _) h6
  · show (m.cg x).pos.allocated = true
    by_cases ha : (al.s.pos x).allocated = true
    · rw [kept x ha]; exact ha
    · rw [mm.alloc]
      refine hcol.2.2.1 x (hperm.mem_iff.2 (mem_allVar.2 (.inr ⟨hx, ?_, by simpa using ha⟩)))
      unfold ops at hres
      rw [dst_of_result, if_pos hres]
      rfl

theorem colored_ok {s0 : Cg} {off0 : Int} {R : List Nat} {rg : Nat → Nat} {d : BitVec 16} {al : Allocated} {c m : RA.St} (h : Rounds s0 off0 R rg d al)
    (hg : Graph s0.f) (hconn : ∀ b ∈ R, Conn s0.f b) (hc : RA.coloring al.ra = .ok c) (hm : RA.coalescing (copiesOf al.s.f R) c = .ok m)
    (hfix : NotFixed (raOf R rg al.s) (copiesOf al.s.f R)) (hap : RA.Apart m) : Seated al.s R (regPos m) ∧
      (RegsKept al.s.f R (places al.s.pos) (places (regPos m)) → ∀ W τ, Loc.Keeps W al.s.f (places al.s.pos) al.s.f (places (regPos m)) τ) := by
  obtain ⟨hseat, kept, hco3, hadj⟩ := seated_of h hg hc hm hfix
  refine ⟨hseat, fun hk W τ => ?_⟩
  obtain ⟨l, s1, hl, hsg, hperm⟩ := h.last
  obtain ⟨reqs, h1, h2⟩ := Loc.analyse_reqs_ok (h.holds.liveOk (h.frame.graph hg)) hl
  have hst := h.holds.start
  have hco1 : ∀ a b, (a, b) ∈ reqs → ∀ r, (m.cg a).pos.inReg = some r → (m.cg b).pos.inReg = some r →
      ((raOf R rg al.s).cg a).pos.inReg = some r ∧ ((raOf R rg al.s).cg b).pos.inReg = some r := fun a b hab r h3 h4 =>
    RA.apart_requested hst.regs h1 (fun x => (hadj x).trans (hsg.adj x)) kept hap hab h3 h4
  have := Loc.keeps_assigned h.holds.ready.flow (s := raOf R rg al.s) (s2 := m) (dst := dst al.s.f) (by
    rw [posIn_raOf]
    exact h.holds.allocReady (fun b hb => h.frame.conn (hconn b hb))) h2 ⟨hco1, kept, hco3⟩ hst (fun _ => rfl) (fun v _ => by
    show (al.s.pos v).reg.val ≤ 10
    have := (al.s.pos v).reg.isLt
    omega) (by rw [posIn_raOf]; exact hk) W τ
  rw [posIn_raOf] at this
  exact this

/-- Conflicting values are in different registers, if no two conflicting values without places are merged. -/
theorem apart_of_copies {s0 : Cg} {off0 : Int} {R : List Nat} {rg : Nat → Nat} {d : BitVec 16} {al : Allocated} {c m : RA.St} (h : Rounds s0 off0 R rg d al)
    (hg : Graph s0.f) (hc : RA.coloring al.ra = .ok c) (hm : RA.coalescing (copiesOf al.s.f R) c = .ok m) (hfix : NotFixed (raOf R rg al.s) (copiesOf al.s.f R))
    (hcopy : ∀ p ∈ copiesOf al.s.f R, p.2 ∈ (c.cg p.1).adj → ((raOf R rg al.s).cg p.1).fin = true ∨ ((raOf R rg al.s).cg p.2).fin = true) : RA.Apart m := by
  obtain ⟨l, s1, hl, hsg, hperm⟩ := h.last
  obtain ⟨reqs, h1, h2⟩ := Loc.analyse_reqs_ok (h.holds.liveOk (h.frame.graph hg)) hl
  have hst := h.holds.start
  have sp0 := RA.conflicts_same h1
  obtain ⟨dd, ap⟩ := RA.colorAll_ok hc
  have g' : RA.Gr al.ra := (RA.conflicts_gr hst.gr h1).ofSame hsg
  have fin2 : ∀ v, (c.cg v).fin = ((raOf R rg al.s).cg v).fin := fun v => ((dd.fin v).trans (hsg.fin v)).trans (sp0.fin v)
  have sym2 : ∀ u v, v ∈ (c.cg u).adj → u ∈ (c.cg v).adj := by intro u v; rw [dd.adj, dd.adj]; exact g'.sym u v
  have mm := RA.coalescing_ok hm sym2 (by
    intro p hp
    rw [fin2, fin2]
    exact ⟨hfix p hp, hcopy p hp⟩)
  refine mm.apart sym2 (ap g'.sym (RA.apart_init (fun i hi => ?_) g'))
  rw [hsg.regs.trans sp0.regs, (hsg.pos _).trans (sp0.pos _), (hsg.fin _).trans (sp0.fin _)]
  exact hst.regs i hi

end Verif.Compile
