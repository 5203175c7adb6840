import Verif.Cg.SpillConst
import Verif.Cg.SpillAll
import Verif.Spec.Consts
/-!
# What `spill_const` does to a function
-/
namespace Verif.Cg
open Verif Verif.IR Verif.Edit Verif.Loc
open Verif.Norm (VrPos)

theorem isConst_iff {o : Option Val} : isConst o = true ↔ ∃ k c t b, o = some (.const k c t b) := by
  unfold isConst
  split
  · simp
  · rename_i h
    constructor
    · simp
    · rintro ⟨k, c, t, b, rfl⟩; exact absurd rfl (h k c t b)

theorem needsReg_iff {i : Insn} {j : Nat} : needsReg i = some j ↔ Unfit i j := by
  unfold needsReg
  constructor
  · intro h
    split at h
    · rename_i h1
      cases h
      obtain ⟨k, c, t, b, e⟩ := isConst_iff.1 h1.2.2
      refine .alu h1.1 ?_ e
      have := h1.2.1
      generalize i.op = o at this
      cases o <;> simp_all [Norm.Op.comm]
    · split at h
      · rename_i h1
        cases h
        obtain ⟨k, c, t, b, e⟩ := isConst_iff.1 h1.2.2.1
        obtain ⟨k', c', t', b', e'⟩ := isConst_iff.1 h1.2.2.2
        have hl := h1.2.1
        rcases ev : i.vals with _ | ⟨v, _ | ⟨w, _ | ⟨_, _⟩⟩⟩ <;> rw [ev] at hl e e' <;> simp at hl e e'
        exact .jmp h1.1 (by rw [ev, e, e'])
      · cases h
  · rintro (⟨h1, h2, h3⟩ | ⟨h1, h2⟩)
    · rw [if_pos]
      refine ⟨h1, ?_, isConst_iff.2 ⟨_, _, _, _, h3⟩⟩
      generalize i.op = o at h2
      cases o <;> simp_all [Norm.Op.comm]
    · rw [if_neg, if_pos]
      · rw [h2]; exact ⟨h1, rfl, rfl, rfl⟩
      · rintro ⟨h3, -⟩
        generalize i.op = o at h1 h3
        cases o <;> simp [Norm.Op.binAlu, Norm.Op.condJmp] at h1 h3

theorem needsReg_none {i : Insn} : needsReg i = none ↔ ∀ j, ¬ Unfit i j := by
  constructor
  · intro h j hj
    rw [needsReg_iff.2 hj] at h; cases h
  · intro h
    cases e : needsReg i with
    | none => rfl
    | some j => exact absurd (needsReg_iff.1 e) (h j)

theorem Unfit.op {i : Insn} {j : Nat} (h : Unfit i j) : i.op.binAlu = true ∨ i.op.condJmp = true := by
  rcases h with ⟨h, _, _⟩ | ⟨h, _⟩
  · exact .inl h
  · exact .inr h

theorem Unfit.const {i : Insn} {j : Nat} (h : Unfit i j) : ∃ k c t b, i.vals[j]? = some (.const k c t b) := by
  rcases h with ⟨_, _, h⟩ | ⟨_, h⟩
  · exact ⟨_, _, _, _, h⟩
  · exact ⟨_, _, _, _, by rw [h]; rfl⟩

theorem Unfit.notPhi {i : Insn} {j : Nat} (h : Unfit i j) : i.op ≠ .phi ∧ i.op ≠ .loadraw ∧ i.op ≠ .storeraw := by
  refine ⟨?_, ?_, ?_⟩ <;> (intro e; rcases h.op with h | h <;> rw [e] at h <;> cases h)

/-- Instruction `x` after the constant has been moved to `n`. -/
def fitted (i : Insn) (j n : Nat) : Insn := { i with vals := i.vals.set j (.insn n) }

theorem fitted_ok {i : Insn} {j n : Nat} (h : Unfit i j) (j' : Nat) : ¬ Unfit (fitted i j n) j' := by
  rintro (⟨h1, h2, h3⟩ | ⟨h1, h2⟩)
  · rcases h with ⟨-, -, h⟩ | ⟨h, -⟩
    · unfold fitted at h3
      rw [show ({ i with vals := i.vals.set 0 (.insn n) } : Insn).vals = i.vals.set 0 (.insn n) from rfl] at h3
      rcases ev : i.vals with _ | ⟨_, _⟩ <;> rw [ev] at h3 <;> simp at h3
    · have h1 : i.op.binAlu = true := h1
      generalize i.op = o at h1 h
      cases o <;> simp [Norm.Op.binAlu, Norm.Op.condJmp] at h1 h
  · rcases h with ⟨h, -, -⟩ | ⟨-, h⟩
    · have h1 : i.op.condJmp = true := h1
      generalize i.op = o at h1 h
      cases o <;> simp [Norm.Op.binAlu, Norm.Op.condJmp] at h1 h
    · unfold fitted at h2
      rw [h] at h2
      simp at h2

/-- Changing an operand in `values`. -/
theorem changeValue_val {f : Fn} {u j : Nat} {old rep : Val} (hp : (f.insn u).vals[j]? = some old) : ∃ g, changeValue f u (.val j) rep = .ok g ∧ Changed f u g ∧
      g.insn u = { f.insn u with vals := (f.insn u).vals.set j rep } ∧
      ∀ y, (g.users y).count u = (f.users y).count u - (if old = .insn y then 1 else 0) + (if rep = .insn y then 1 else 0) := by
  have hg : getPtr (f.insn u) (.val j) = some old := hp
  have h0 := removeUser_same f old u
  have h1 := addUser_same { removeUser f old u with insn := upd (removeUser f old u).insn u (setPtr ((removeUser f old u).insn u) rep (.val j)) } rep u
  refine ⟨_, ?_, ⟨⟨fun z hz => ?_, h1.next.trans h0.next, h1.parent.trans h0.parent, h1.body.trans h0.body, h1.allBbs.trans h0.allBbs, h1.sp.trans h0.sp,
    h1.args.trans h0.args⟩, h1.entry.trans h0.entry, h1.succs.trans h0.succs, h1.preds.trans h0.preds, fun y z hz => ?_⟩, ?_, fun y => ?_⟩
  · unfold changeValue; rw [hg]
  · rw [h1.insn]; dsimp only; rw [upd_ne _ _ hz, h0.insn]
  · rw [addUser_count, if_neg (fun e => hz e.2)]
    dsimp only
    rw [removeUser_count, if_neg (fun e => hz e.2)]
    rfl
  · rw [h1.insn]; dsimp only; rw [upd_same, h0.insn]; rfl
  · rw [addUser_count]
    dsimp only
    rw [removeUser_count]
    simp

/-- `D` are the instructions that have been looked at. -/
structure CInv (f : Fn) (pos0 : Nat → VrPos) (D : Nat → Prop) (s : Cg) (N : Nat → List Nat) : Prop where
  grown : Grown f s.f (fun _ => []) N (fun _ => []) (fun _ => [])
  pos : ∀ x, x < f.next → s.pos x = pos0 x
  posN : ∀ n, f.next ≤ n → n < s.f.next → s.pos n = noPos
  far : ∀ n, s.f.next ≤ n → s.pos n = pos0 n
  same : ∀ x, x < f.next → ¬ D x ∨ (∀ j, ¬ Unfit (f.insn x) j) → s.f.insn x = f.insn x ∧ N x = []
  dom : ∀ x, D x → x < f.next
  moved : ∀ x, D x → ∀ j, Unfit (f.insn x) j → ∃ n, N x = [n] ∧ f.next ≤ n ∧ n < s.f.next ∧ s.f.insn n = mkAssign ((f.insn x).vals.getD j .undef) ∧
    s.f.insn x = fitted (f.insn x) j n
  new : ∀ n, f.next ≤ n → n < s.f.next → ∃ v, s.f.insn n = mkAssign v ∧ isConst (some v) = true
  newN : ∀ x, ∀ n ∈ N x, f.next ≤ n ∧ n < s.f.next
  cover : CoverP s.f (fun _ _ => False)
  users : UsersIn s.f

variable {f : Fn} {R : List Nat} {pos0 : Nat → VrPos} {D : Nat → Prop} {s : Cg} {N : Nat → List Nat}

theorem CInv.start (hB : Base f R) (pos0 : Nat → VrPos) : CInv f pos0 (fun _ => False) ⟨f, pos0⟩ (fun _ => []) :=
  ⟨.start hB.tidy, fun _ _ => rfl, fun n h1 h2 => by dsimp only at h2; omega, fun _ _ => rfl, fun _ _ _ => ⟨rfl, rfl⟩, fun _ h => h.elim, fun _ h => h.elim,
   fun n h1 h2 => by dsimp only at h2; omega, fun _ n hn => by simp at hn, hB.cover, hB.users⟩

theorem CInv.one (h : CInv f pos0 D s N) (hB : Base f R) {b x : Nat} (hb : b ∈ f.allBbs) (hx : x ∈ f.body b) (hD : ¬ D x) :
    ∃ s' N', constToReg x s = .ok s' ∧ CInv f pos0 (fun y => D y ∨ y = x) s' N' := by
  have hxl : x < f.next := hB.tidy.lt x (.inr (.inr ⟨b, hb, hx⟩))
  have hxs := h.same x hxl (.inl hD)
  have hle := h.grown.next
  unfold constToReg
  rw [hxs.1]
  cases e : needsReg (f.insn x) with
  | none =>
    rw [needsReg_none] at e
    refine ⟨s, N, rfl, h.grown, h.pos, h.posN, h.far, fun y hy ho => ?_, fun y hy => hy.elim (h.dom y) (fun e => by rw [e]; exact hxl), ?_, h.new, h.newN, h.cover, h.users⟩
    · by_cases e1 : y = x
      · subst e1; exact hxs
      · refine h.same y hy ?_
        rcases ho with ho | ho
        · exact .inl (fun h => ho (.inl h))
        · exact .inr ho
    · rintro y (hy | rfl) j hj
      · exact h.moved y hy j hj
      · exact absurd hj (e j)
  | some j =>
    rw [needsReg_iff] at e
    dsimp only
    obtain ⟨k, c, t, bb, ev⟩ := e.const
    have evD : (f.insn x).vals.getD j .undef = .const k c t bb := by rw [List.getD_eq_getElem?_getD, ev]; rfl
    have hxc : x ∈ codeOf f b := by
      rw [← phisOf_append f b] at hx
      rcases List.mem_append.1 hx with hx | hx
      · exact absurd (phisOf_phi hx) e.notPhi.1
      · exact hx
    have hops : ∀ y, .insn y ∈ operands (mkAssign ((f.insn x).vals.getD j .undef)) → Live s.f y := by
      rw [evD]
      intro y hy
      simp [mkAssign, operands, raw] at hy
    have hb' : b ∈ s.f.allBbs := by rw [h.grown.allBbs]; exact hb
    obtain ⟨g, h1, ha, hg⟩ := h.grown.front hB.tidy hb hxc (by rw [hxs.1]; exact e.notPhi.1) hops
    rw [h1, Out.ok_bind]
    have hxg : g.insn x = f.insn x := by rw [ha.insn, upd_ne _ _ (by omega), hxs.1]
    obtain ⟨g', h2, hc, hi, hu⟩ := changeValue_val (f := g) (u := x) (j := j) (rep := .insn s.f.next) (by rw [hxg]; exact ev)
    rw [h2, Out.ok_bind]
    have hbod : InBody g x := (added_inBody ha hb').2 (.inr ⟨b, hb', h.grown.stay hb hx⟩)
    have hold : ∀ z, z ≠ x → z ≠ s.f.next → g'.insn z = s.f.insn z := fun z h1 h2 => by rw [hc.patched.insn z h1, ha.insn, upd_ne _ _ h2]
    have hnew : g'.insn s.f.next = mkAssign ((f.insn x).vals.getD j .undef) := by rw [hc.patched.insn _ (by omega), ha.insn, upd_same]
    have hix : g'.insn x = fitted (f.insn x) j s.f.next := by rw [hi, hxg]; rfl
    have hnx : g'.next = s.f.next + 1 := by rw [hc.patched.next, ha.next]
    have cg := h.cover.added h.grown.tidy ha hb'
    have ug := h.users.added h.grown.tidy ha hb' hops
    have hrf : ∀ y, 0 < refs (g'.insn x) y → y = s.f.next ∨ 0 < refs (g.insn x) y := by
      intro y hy
      rw [refs_pos] at hy
      rw [hix] at hy
      have hm : .insn y ∈ (f.insn x).vals.set j (.insn s.f.next) := by
        have hr : raw (f.insn x).op = false := by
          have := e.notPhi
          generalize (f.insn x).op = o at this
          cases o <;> simp_all [raw]
        have hph : (f.insn x).op ≠ .phi := e.notPhi.1
        unfold operands fitted at hy
        simpa [hr, hph] using hy
      rcases List.mem_or_eq_of_mem_set hm with hm | hm
      · right
        rw [refs_pos, hxg]
        unfold operands
        simp [hm]
      · exact .inl (Val.insn.inj hm)
    have hcl : ∀ y, 0 < refs (g'.insn x) y → Live g y := by
      intro y hy
      rcases hrf y hy with rfl | hy
      · exact (ha.live hb').2 (.inl rfl)
      · exact hg.tidy.closed x y (.inr (.inr hbod)) hy
    refine ⟨_, upd N x (N x ++ [s.f.next]), rfl, ?_, fun y hy => ?_, fun n h3 h4 => ?_, fun n hn => ?_, fun y hy ho => ?_, fun y hy => hy.elim (h.dom y) (fun e => by rw [e]; exact hxl), ?_, fun n h3 h4 => ?_, fun y n hn => ?_, ?_, ?_⟩
    · exact hg.patch hc.entry hc.succs hc.preds hc.patched.allBbs hc.patched.sp hc.patched.args hc.patched.next hc.patched.body
        (hc.patched.tidy hg.tidy (fun _ => hcl))
    · dsimp only; rw [upd_ne _ _ (by omega)]; exact h.pos y hy
    · dsimp only at h4 ⊢
      by_cases e1 : n = s.f.next
      · rw [e1, upd_same]
      · rw [upd_ne _ _ e1]; exact h.posN n h3 (by omega)
    · dsimp only at hn ⊢
      rw [upd_ne _ _ (by omega)]; exact h.far n (by omega)
    · dsimp only
      have hyx : y ≠ x := by
        rintro rfl
        rcases ho with ho | ho
        · exact ho (.inr rfl)
        · exact ho j e
      rw [hold y hyx (by omega), upd_ne _ _ hyx]
      refine h.same y hy ?_
      rcases ho with ho | ho
      · exact .inl (fun h => ho (.inl h))
      · exact .inr ho
    · rintro y hy j' hj
      by_cases e1 : y = x
      · subst e1
        have : j' = j := by
          have e1 := needsReg_iff.2 hj
          rw [needsReg_iff.2 e] at e1
          exact (Option.some.inj e1).symm
        subst this
        exact ⟨s.f.next, by rw [upd_same, hxs.2]; rfl, hle, by dsimp only; omega, hnew, hix⟩
      · obtain ⟨n, n1, n2, n3, n4, n5⟩ := h.moved y (hy.resolve_right e1) j' hj
        have hyl := h.dom y (hy.resolve_right e1)
        refine ⟨n, by rw [upd_ne _ _ e1]; exact n1, n2, by dsimp only; omega, ?_, ?_⟩
        · dsimp only; rw [hold n (by omega) (by omega)]; exact n4
        · dsimp only; rw [hold y e1 (by omega)]; exact n5
    · dsimp only at h4 ⊢
      by_cases e1 : n = s.f.next
      · exact ⟨_, by rw [e1]; exact hnew, by rw [evD]; rfl⟩
      · rw [hold n (by omega) e1]; exact h.new n h3 (by omega)
    · dsimp only
      by_cases e1 : y = x
      · subst e1
        rw [upd_same, hxs.2] at hn
        simp at hn
        omega
      · rw [upd_ne _ _ e1] at hn
        have := h.newN y n hn
        omega
    · refine cg.changed hc (fun y _ hy => ?_)
      rw [← List.count_pos_iff, hu]
      rcases hrf y hy with rfl | hy
      · rw [if_pos rfl]; omega
      · have := cg y x (.inr (.inr hbod)) (fun h => h) hy
        rw [← List.count_pos_iff] at this
        rw [if_neg (by simp)]
        omega
    · exact ug.changed hc hbod

end Verif.Cg
