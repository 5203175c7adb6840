import Verif.Phi.Lemmas
import Verif.IR.SsaCheck
import Verif.Edit.Props
/-!
# Properties of the removal of trivial phis
-/
namespace Verif.Phi
open Verif Verif.IR Verif.Edit

/-- C33, in part: on functions in SSA form the pass terminates and succeeds; no phi in the blocks `rs` is left whose
operands are all one instruction or itself, and none with one operand; only phis are gone; and the function does the
same: same memory, same calls, same result.  Missing: phis with the same constant twice stay (`C33_violated`). -/
theorem C33_trivialPhi_partial {f : Fn} {rs : List Nat} (hf : Ok f) (hs : Ssa f) (hrs : ∀ b ∈ rs, b ∈ f.allBbs ∧ Reach f b) :
    ∃ k0 g, (∀ k, k0 ≤ k → removeTrivial rs k f = .ok g) ∧
      (∀ b ∈ rs, ∀ x ∈ g.body b, (g.insn x).op = .phi →
        (¬ ∃ y, ∀ o ∈ (g.insn x).phi, o.2 = .insn y ∨ o.2 = .insn x) ∧ (g.insn x).phi.length ≠ 1) ∧
      (∀ b x, x ∈ f.body b → x ∉ g.body b → b ∈ rs ∧ (f.insn x).op = .phi) ∧
      (∀ b, (g.body b).Sublist (f.body b)) ∧ (∀ x, (g.insn x).op = (f.insn x).op) ∧ g.allBbs = f.allBbs ∧ g.succs = f.succs ∧
      g.entry = f.entry ∧ Ok g ∧ Ssa g ∧ ∀ W σ, Preserves W f g σ := by
  have hi : Inv rs f := ⟨hf, hs, hrs⟩
  obtain ⟨g, h1, h2, h3⟩ := removeTrivial_ok (Dead.total f rs + 1) f hi (Nat.lt_succ_self _)
  obtain ⟨D, hD, hD'⟩ := h2.body
  refine ⟨_, g, fun k hk => removeTrivial_mono _ _ _ h1 k hk, ?_, ?_, fun b => by rw [hD]; exact List.filter_sublist, h2.op, h2.allBbs,
    h2.succs, h2.entry, h2.ok, h2.ssa, h2.pres⟩
  · intro b hb x hx hp
    have hd := h3 b hb x hx hp
    refine ⟨?_, fun hl => ?_⟩
    · rintro ⟨y, hy⟩
      obtain ⟨r, hr⟩ := scan_insn x y (g.insn x).phi none (.inl rfl) hy
      rw [hd] at hr; cases hr
    · match hq : (g.insn x).phi with
      | [] => rw [hq] at hl; cases hl
      | [(p, w)] =>
        rw [hq] at hd
        cases w with
        | const => simp [scan] at hd
        | undef => simp [scan] at hd
        | insn y =>
          simp only [scan] at hd
          split at hd
          · cases hd
          · simp at hd
      | _ :: _ :: _ => rw [hq] at hl; simp at hl
  · intro b x hx hn
    have hd : D x = true := by
      rw [hD, List.mem_filter] at hn
      cases e : D x with
      | true => rfl
      | false => exact absurd ⟨hx, by simp [e]⟩ hn
    obtain ⟨e1, c, hc, hxc⟩ := hD' x hd
    have hb : b ∈ f.allBbs := Classical.byContradiction fun h => by rw [hf.only b h] at hx; cases hx
    have hcb : c = b := (hf.tidy.parent c (hrs c hc).1 x hxc).symm.trans (hf.tidy.parent b hb x hx)
    exact ⟨by rw [← hcb]; exact hc, e1⟩

/-- C33, the values: whenever control is in front of an instruction that uses the phi, the value of the phi is the value of
the operand that replaces it. -/
theorem C33_value {W : World} {f g : Fn} {x bx : Nat} {v : Val} (T : Triv f x bx v)
    (h : erase (replaceExcept f x v x) x = .ok g) (hv : LiveVal f v) (σ : St) {n b z : Nat} {rest : List Nat} {τ : St}
    (hr : runFn W f n σ = .running b (z :: rest) τ) (hp : (f.insn z).op ≠ .phi) (hu : 0 < refs (f.insn z) x) :
    eval τ v = some (τ.env x) := by
  obtain ⟨g', h1, G⟩ := remove_gone T.ok T.inBody hv T.ne
  rw [h] at h1
  cases h1
  have h0 : PhiRel f x bx v [f.entry] σ σ := by
    refine ⟨⟨fun _ _ => rfl, fun _ _ => rfl, rfl, rfl⟩, ?_⟩
    rintro ⟨l1, l2, e, _⟩
    cases l1 with
    | nil => simp at e; exact absurd e.1.symm T.entry
    | cons c l1 => simp at e
  obtain ⟨k, τ', hw, hrel, hb⟩ := (T.skips (W := W) G.body G.entry G.succs G.insn).reach n f.entry [] (f.body f.entry) σ σ .entry h0
    (List.suffix_refl _) b (z :: rest) τ hr
  have hd := T.ssa.uses b z (hb.subset (by simp)) hp x T.inBody hu
  rw [T.parent] at hd
  exact hrel.2 (T.fresh hw hd)

/-! ## Examples -/

/-- A loop: `b0: y = r1 + r1; ja b1`, `b1: x = phi (b0: y) (b1: z); z = phi (b0: y) (b1: x); jgt x, z → b1 / b2`,
`b2: ret x`. -/
def loopFn : Fn :=
  let f := newBb (newBb emptyFn)
  let f := createBb f (mkBin .add .w64 (.insn 1) (.insn 1)) 0 .back
  let f := createBb f (mkJa 1) 0 .back
  let f := createBb f mkPhi 1 .back
  let f := createBb f mkPhi 1 .back
  let f := phiAddOperand f 8 0 (.insn 6)
  let f := phiAddOperand f 8 1 (.insn 8)
  let f := phiAddOperand f 9 0 (.insn 6)
  let f := phiAddOperand f 9 1 (.insn 8)
  let f := createBb f (mkJbin .jgt .w64 (.insn 8) (.insn 9) 2 1) 1 .back
  let f := createBb f (mkRet (.insn 9)) 2 .back
  let f := connect f 0 1
  let f := connect f 1 1
  connect f 1 2

theorem loopFn_only (b : Nat) (hb : b ∉ loopFn.allBbs) : loopFn.body b = [] := by
  have h0 : b ≠ 0 := by rintro rfl; exact hb (by decide)
  have h1 : b ≠ 1 := by rintro rfl; exact hb (by decide)
  have h2 : b ≠ 2 := by rintro rfl; exact hb (by decide)
  unfold loopFn
  dsimp only
  simp only [connect, phiAddOperand, addUser]
  rw [(added_createBb ..).body b h2, (added_createBb ..).body b h1]
  dsimp only
  rw [(added_createBb ..).body b h1, (added_createBb ..).body b h1, (added_createBb ..).body b h0, (added_createBb ..).body b h0]
  simp only [newBb, upd]
  split
  · rfl
  · split <;> rfl

theorem loopFn_ok : Ok loopFn := ok_of_check (by decide +kernel) loopFn_only

theorem loopFn_ssa : Ssa loopFn := ssa_of_check (dm := fun b => if b = 2 then [0, 1] else if b = 1 then [0] else []) (by decide +kernel) loopFn_only

theorem loopFn_reach : ∀ b ∈ [0, 1, 2], b ∈ loopFn.allBbs ∧ Reach loopFn b := by
  have w0 : Walk loopFn [0] := .entry
  have w1 : Walk loopFn [1, 0] := .step 0 1 [] w0 (.ja 7 (by decide) (by decide) (by decide))
  have w2 : Walk loopFn [2, 1, 0] := .step 1 2 [0] w1 (.cond 10 (by decide) (by decide) (.inl (by decide)))
  intro b hb
  simp only [List.mem_cons, List.not_mem_nil, or_false] at hb
  rcases hb with rfl | rfl | rfl
  · exact ⟨by decide, _, w0⟩
  · exact ⟨by decide, _, w1⟩
  · exact ⟨by decide, _, w2⟩

/-- Both phis go, the second only after the first. -/
example : Ok loopFn ∧ Ssa loopFn ∧ (∀ b ∈ [0, 1, 2], b ∈ loopFn.allBbs ∧ Reach loopFn b) ∧
    onOk (removeTrivial [0, 1, 2] 3 loopFn) (fun g => g.body 1 = [10] ∧ (g.insn 10).vals = [.insn 6, .insn 6] ∧ (g.insn 11).vals = [.insn 6]) = true :=
  ⟨loopFn_ok, loopFn_ssa, loopFn_reach, by decide +kernel⟩

/-- The second phi is trivial once the first is gone; the first is replaced by the addition. -/
example : Triv loopFn 8 1 (.insn 6) :=
  ⟨loopFn_ok, loopFn_ssa, by decide, by decide, by decide, by
    have : (loopFn.insn 8).phi = [(0, .insn 6), (1, .insn 8)] := by decide
    rw [this]; simp, by simp⟩

/-- A diamond without code; the phi gets 5 from both sides. -/
def constFn : Fn :=
  let f := newBb (newBb emptyFn)
  let f := createBb f (mkJbin .jgt .w64 (.insn 1) (const64 0) 1 2) 0 .back
  let f := createBb f (mkJa 2) 1 .back
  let f := createBb f mkPhi 2 .back
  let f := phiAddOperand f 8 0 (const64 5)
  let f := phiAddOperand f 8 1 (const64 5)
  createBb f (mkRet (.insn 8)) 2 .back

/-- C33 is violated: a phi with the same constant twice is trivial but stays. -/
theorem C33_violated : onOk (removeTrivial [0, 1, 2] 3 constFn) (fun g => g.body 2 = [8, 9] ∧ (g.insn 8).op = .phi ∧
    (g.insn 8).phi = [(0, const64 5), (1, const64 5)]) = true := by decide +kernel

end Verif.Phi
