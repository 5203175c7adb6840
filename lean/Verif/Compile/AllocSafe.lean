import Verif.Compile.Loose
/-!
# The rounds of register allocation do not crash
-/
namespace Verif.Compile
open Verif Verif.IR Verif.Edit Verif.Cg

/-- Blocks without jumps come before the blocks that they fall into. -/
def Steps (f : Fn) (R : List Nat) : Prop :=
  ∀ b ∈ f.allBbs, ∀ p ∈ f.preds b, (∀ x ∈ f.body p, ¬ Jump (f.insn x).op) → R.idxOf p < R.idxOf b

theorem falling_of {f g : Fn} {R : List Nat} (hF : Frame R f g) (hs : Steps f R) (hR : R.Nodup) (hm : ∀ b, b ∈ R ↔ b ∈ f.allBbs) (hg : Graph f) : Live.Falling g (fun b => R.idxOf b) := by
  refine ⟨fun b hb => ?_, fun b hb p hp he => ?_⟩
  · rw [hF.allBbs] at hb ⊢
    have h1 : R.idxOf b < R.length := List.idxOf_lt_length_of_mem ((hm b).2 hb)
    have h2 : R.length ≤ f.allBbs.length := hR.length_le_of_subset (fun b hb => (hm b).1 hb)
    omega
  · rw [hF.allBbs] at hb
    rw [hF.preds] at hp
    refine hs b hb p hp (fun x hx hj => ?_)
    have := ((hF.jumps p ((hm p).2 ((hg.preds b hb).2 p hp))).1 x hx hj.not_phi).1
    rw [he] at this
    cases this

/-- The rounds end with a result or the error that there are too many of them. -/
theorem allocate_safe {L : Bool × Bool} {f : Fn} {R : List Nat} {rg : Nat → Nat} {d : BitVec 16} {P : Nat → Prop} (hR : R.Nodup) (hm : ∀ b, b ∈ R ↔ b ∈ f.allBbs) (hg : Graph f) (hs : Steps f R) :
    ∀ (n : Nat) (s : Cg) (off : Int), Holds s R rg d off → Solid L P R s.f → Loose s R rg → Frame R f s.f →
      Safe (allocate R rg n s off) ∧ ∀ al, allocate R rg n s off = .ok al → Solid L P R al.s.f ∧ Loose al.s R rg
  | 0, s, off, h, _, _, _ => ⟨.inl rfl, fun al e => by cases e⟩
  | n + 1, s, off, h, ht, hl, hF => by
    have hall : ∀ b ∈ s.f.allBbs, b ∈ R := fun b hb => (hm b).2 (by rw [← hF.allBbs]; exact hb)
    obtain ⟨l, s1, e1, -⟩ := analyse_total h (hF.graph hg) ht.toSteady hall (falling_of hF hs hR hm hg)
    have hsame : RA.SamePos (raOf R rg s) s1 := by
      obtain ⟨l0, -, h2⟩ := Out.bind_eq_ok.1 e1
      obtain ⟨c, -, h4⟩ := Out.bind_eq_ok.1 h2
      obtain ⟨s0, h5, h6⟩ := Out.bind_eq_ok.1 h4
      cases h6
      exact RA.conflicts_same h5
    have hn1 : s1.allVar.Nodup := by rw [hsame.allVar]; exact h.allVar_nodup hR
    obtain ⟨m, e3, hg1, hperm⟩ := RA.mcs_ok hn1
    have hnv : ∀ v, (m.cg v).nonvr = ((raOf R rg s).cg v).nonvr := fun v => (hg1.nonvr v).trans (hsame.nonvr v)
    have hseo : ∀ v ∈ m.seo, v ∈ (raOf R rg s).allVar := fun v hv => by rw [← hsame.allVar]; exact hperm.mem_iff.1 hv
    have hregs : m.regs = rg := hg1.regs.trans hsame.regs
    obtain ⟨q, vs, e6, hg2, hs2, hvs, -⟩ := RA.preSpillAlong_ok (s := m) (fun v hv hnon => by
      rw [hregs]
      rcases mem_allVar.1 (hseo v hv) with ⟨i, hi, e⟩ | ⟨⟨b, hb, hx⟩, -, -⟩
      · exact ⟨i, hi, e⟩
      · exfalso
        rw [hnv] at hnon
        have hfix := h.ready.tidy.fixed b (h.ready.sub b hb) v hx
        simp only [raOf, Bool.or_eq_true, decide_eq_true_eq, List.any_eq_true, List.mem_range, beq_iff_eq] at hnon
        rcases hnon with e | ⟨i, hi, e⟩
        · exact hfix.1 e
        · exact hfix.2 (by rw [← e]; exact h.regs i hi))
    have hnd := preSpillAlong_nodup e6
    have hvic : ∀ v ∈ vs, VictimR s R v := by
      intro v hv
      obtain ⟨h1, h2⟩ := hvs v hv
      rw [hnv] at h1
      rcases mem_allVar.1 (hseo v h2) with ⟨i, hi, e⟩ | ⟨hx, hd, hf⟩
      · exfalso
        simp only [raOf, Bool.or_eq_false_iff, List.any_eq_false, List.mem_range, beq_iff_eq] at h1
        exact h1.2 i hi e.symm
      · refine ⟨⟨hx.inBody h.ready.sub, ⟨?_, fun ho => ?_⟩, hf⟩, hx⟩
        · rw [dst_of_result] at hd
          split at hd
          · assumption
          · cases hd
        · have := (h.arrays v hx ho).1
          rw [hf] at this
          cases this
    unfold allocate
    rw [e1, Out.ok_bind]
    dsimp only
    unfold RA.preSpill
    rw [e3, Out.ok_bind, e6, Out.ok_bind]
    cases vs with
    | nil => exact ⟨.inr ⟨_, rfl⟩, fun al e => by cases e; exact ⟨ht, hl⟩⟩
    | cons v vs =>
      obtain ⟨s3, e7, -⟩ := C40_spill_partial h.ready (fun v hv => (hvic v hv).1) hnd
      dsimp only
      rw [e7, Out.ok_bind]
      obtain ⟨h1, h2⟩ := spill_all (v :: vs) s s3 off _ h hvic hnd e7
      exact allocate_safe hR hm hg hs n s3 _ h1 (spill_solid (v :: vs) s s3 off _ h hvic hnd ht hall e7) (spill_loose (v :: vs) s s3 off _ h hvic hnd hl e7) (hF.trans h2)

end Verif.Compile
