import Verif.Cg.ConstFresh
import Verif.Cg.SpillProps
/-!
# C53: constants that have no encoding are moved to registers
-/
namespace Verif.Cg
open Verif Verif.IR Verif.Edit Verif.Loc
open Verif.Norm (VrPos)

/-- **C53**: `spill_const` succeeds.  Afterwards no instruction in a reachable block has a constant where the machine has none.  An instruction without such a constant is as
before; for one with such a constant a move of exactly this constant to a new virtual register is put in front of it, and the register takes the place of the constant.  The function
does the same as before: it returns the same value, leaves the same memory and makes the same calls with the same arguments, and it is ready for `spill`. -/
theorem C53_const {s : Cg} {R : List Nat} {off : Int} (h : SpillReady s R off) (hR : R.Nodup) :
    ∃ s', spillConst R s = .ok s' ∧ SpillReady s' R off ∧
      (∀ b ∈ R, ∀ x ∈ s'.f.body b, ∀ j, ¬ Unfit (s'.f.insn x) j) ∧
      (∀ x, InBody s.f x → (∀ j, ¬ Unfit (s.f.insn x) j) → s'.f.insn x = s.f.insn x) ∧
      (∀ b ∈ R, ∀ x ∈ s.f.body b, ∀ j v, Unfit (s.f.insn x) j → (s.f.insn x).vals[j]? = some v → ∃ n A B, s'.f.body b = A ++ n :: x :: B ∧ ¬ Live s.f n ∧
        (s'.pos n).allocated = false ∧ s'.f.insn n = mkAssign v ∧ s'.f.insn x = { s.f.insn x with vals := (s.f.insn x).vals.set j (.insn n) }) ∧
      ∀ (W : World) τ, Loc.Keeps W s.f (places s.pos) s'.f (places s'.pos) τ := by
  have hB := h.base
  have hin : ∀ {x}, x ∈ R.flatMap s.f.body → ∃ b ∈ R, x ∈ s.f.body b := fun hx => List.mem_flatMap.1 hx
  have lt : ∀ {b x : Nat}, b ∈ R → x ∈ s.f.body b → x < s.f.next := fun hb hx => hB.tidy.lt _ (.inr (.inr ⟨_, hB.sub _ hb, hx⟩))
  obtain ⟨s', N, h1, h2⟩ := CInv.loop hB (R.flatMap s.f.body) s _ _ (CInv.start hB s.pos) (fun x hx => by
    obtain ⟨b, hb, hx⟩ := hin hx
    exact ⟨⟨b, hB.sub b hb, hx⟩, fun h => h⟩) (nodup_bodies hB.tidy hB.sub hR)
  refine ⟨s', h1, (h2.base hB).ready ⟨h.le, fun x hx => ?_⟩ (h2.fresh hB h.fresh), fun b hb x hx j hj => ?_, fun x hx hu => ?_, fun b hb x hx j v hu hv => ?_, h2.keeps hB⟩
  · rcases Nat.lt_or_ge x s.f.next with hl | hl
    · rw [h2.pos x hl] at hx ⊢; exact h.pos x hx
    · rcases Nat.lt_or_ge x s'.f.next with hl' | hl'
      · rw [h2.posN x hl hl'] at hx; cases hx
      · rw [h2.far x hl'] at hx ⊢; exact h.pos x hx
  · rcases h2.mem (hB.sub b hb) hx with hx | hx
    · have hm : x ∈ R.flatMap s.f.body := List.mem_flatMap.2 ⟨b, hb, hx⟩
      cases e : needsReg (s.f.insn x) with
      | none =>
        rw [(h2.same x (lt hb hx) (.inr (needsReg_none.1 e))).1] at hj
        exact needsReg_none.1 e j hj
      | some i =>
        obtain ⟨n, -, -, -, -, e1⟩ := h2.moved x (.inr hm) i (needsReg_iff.1 e)
        rw [e1] at hj
        exact fitted_ok (needsReg_iff.1 e) j hj
    · obtain ⟨v, e, -⟩ := h2.new x hx.1 hx.2
      rw [e] at hj
      rcases hj.op with h3 | h3 <;> cases h3
  · exact (h2.same x (hB.tidy.lt x (.inr (.inr hx))) (.inr hu)).1
  · obtain ⟨n, n1, n2, n3, n4, n5⟩ := h2.moved x (.inr (List.mem_flatMap.2 ⟨b, hb, hx⟩)) j hu
    have hxc : x ∈ codeOf s.f b := by
      rw [← phisOf_append s.f b] at hx
      rcases List.mem_append.1 hx with hx | hx
      · exact absurd (phisOf_phi hx) hu.notPhi.1
      · exact hx
    obtain ⟨A, B, eA⟩ := List.append_of_mem hxc
    have hat := h2.grown.at (hB.sub b hb) eA
    rw [n1] at hat
    refine ⟨n, phisOf s.f b ++ ([] ++ ex N (fun _ => []) A), [] ++ (ex N (fun _ => []) B ++ []), ?_, fun hl => ?_, by rw [h2.posN n n2 n3]; rfl, ?_, n5⟩
    · rw [hat]; simp
    · have := hB.tidy.lt n hl; omega
    · rw [n4, List.getD_eq_getElem?_getD, hv]; rfl

/-! ## Example -/

/-- The difference of a constant and the argument, a jump on two constants, a sum with a constant on the left. -/
def coF : Fn := mkFn [
  ([(11, mkAssign (.insn 1)), (12, mkBin .sub .w64 (c64 7) (.insn 11)), (13, mkJbin .jlt .w64 (c64 3) (c64 3) 1 2)], [1, 2]),
  ([(14, mkBin .add .w64 (c64 5) (.insn 12)), (15, mkRet (.insn 14))], []),
  ([(16, mkRet (.insn 12))], [])]

def coS : Cg := ⟨coF, fun x => if h : x < 11 then ⟨true, ⟨x, h⟩, 0⟩ else noPos⟩

theorem coS_ok : SpillReady coS coF.allBbs 0 := by
  refine (spill_of_check (s := coS) (off := 0) (E := fun b => if b = 0 then [0, 1] else [virt 12]) (vs := []) (by decide +kernel)
    (ok_of_check (by decide +kernel) (fun _ h => mkFn_body h)) (by decide) (fun x hx => ?_)).1
  simp only [coS] at hx ⊢
  split
  · exact Int.le_refl 0
  · decide

example : Unfit (coS.f.insn 12) 0 ∧ Unfit (coS.f.insn 13) 1 ∧ ∀ j, ¬ Unfit (coS.f.insn 14) j :=
  ⟨.alu rfl (by decide) rfl, .jmp rfl rfl, needsReg_none.1 (by decide +kernel)⟩

/-- The left operand of the difference and the second one of the jump are moved to registers; the sum is as before. -/
example : onOk (spillConst coF.allBbs coS) (fun r => (r.f.body 0 == [11, 17, 12, 18, 13]) && ((r.f.insn 17).vals == [c64 7]) && ((r.f.insn 12).vals == [.insn 17, .insn 11]) &&
    ((r.f.insn 18).vals == [c64 3]) && ((r.f.insn 13).vals == [c64 3, .insn 18]) && (r.f.body 1 == [14, 15]) && ((r.f.insn 14).vals == [c64 5, .insn 12])) = true := by
  decide +kernel

end Verif.Cg
