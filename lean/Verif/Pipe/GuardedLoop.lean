import Verif.Pipe.GuardedCode
import Verif.Throw.Props
/-!
# All guards, and the passes behind them
-/
namespace Verif.Pipe
open Verif Verif.IR
open Verif.Edit (upd upd_ne upd_same raw operands const32 mkThrow freshBb split newBb createAt connect)
open Verif.Guard (Guard withErr withErr_spec)
open Verif.DivZero (jump addCheck checkDiv checkAll)
open Verif.Flatten (graphOf lastOf)

/-! ## One guard -/

theorem split_other {f g : Fn} {x : Nat} {pos : Edit.Pos} (h : Graph f) (hb : f.parent x ∈ f.allBbs) (e : split f x pos = .ok g) {c : Nat} (h1 : c ≠ f.parent x) (h2 : c ≠ freshBb f) : g.body c = f.body c := by
  have he := Edit.splitEdges_spec h hb
  have hc : (Edit.splitEdges (newBb f) (f.parent x) (freshBb f)).body c = f.body c := by
    rw [he.body]
    exact upd_ne _ _ h2
  unfold split at e
  dsimp only at e
  cases pos with
  | front =>
    dsimp only at e
    split at e
    · cases e
    · cases e
      dsimp only
      rw [upd_ne _ _ h2, upd_ne _ _ h1, hc]
  | back =>
    dsimp only at e
    split at e
    · cases e
    · cases e
      dsimp only
      rw [upd_ne _ _ h2, upd_ne _ _ h1, hc]
  | _ => cases e

theorem foldr_max : ∀ (l : List Nat) (a : Nat), (l ++ [a]).foldr max 0 = max (l.foldr max 0) a
  | [], a => by simp
  | b :: l, a => by
    simp only [List.cons_append, List.foldr_cons, foldr_max l a]
    omega

theorem addCheck_adds {f g : Fn} {d p y : Nat} (hs : Shape f) (hc : Code (noThrows f)) (hd : InBody f d) (ho : (f.insn d).op = .div) (hv : (f.insn d).vals[1]? = some (.insn y))
    (hl : ∀ x, InBody f x → (f.insn x).op = .phi → ∀ o ∈ (f.insn x).phi, o.1 ≠ f.parent d) (hp : Edit.prevInsn f d = some p) (h : addCheck f d p (.insn y) = .ok g) :
    ∃ hd B, Adds f (f.parent d) (freshBb f) (freshBb f + 1) hd B d y g := by
  obtain ⟨n, e, A, B, h1, G⟩ := DivZero.addCheck_spec hs hd hp h
  have hpm : p ∈ f.body (f.parent d) := by rw [h1]; simp
  have hpp : f.parent p = f.parent d := hs.tidy.parent _ G.inF p hpm
  unfold addCheck at h
  dsimp only at h
  cases hsp : split f p .back with
  | err => rw [hsp] at h; cases h
  | crit => rw [hsp] at h; cases h
  | ub => rw [hsp] at h; cases h
  | ok f1 =>
    rw [hsp] at h
    dsimp only at h
    have hall : f1.allBbs = f.allBbs ++ [freshBb f] ∧ f1.users = f.users ∧ f1.next = f.next ∧ (∀ z, z ∉ f.body (f.parent d) → f1.parent z = f.parent z) ∧ f1.parent p = f.parent d := by
      have hnp : ∀ {hd tl : List Nat}, Edit.Split f (f.parent p) (freshBb f) hd tl f1 → p ∉ tl → f1.allBbs = f.allBbs ++ [freshBb f] ∧ f1.users = f.users ∧ f1.next = f.next ∧ (∀ z, z ∉ f.body (f.parent d) → f1.parent z = f.parent z) ∧ f1.parent p = f.parent d := by
        intro hd tl S hpt
        refine ⟨S.allBbs, S.users, S.next, fun z hz => ?_, ?_⟩
        · rw [S.parent, if_neg]
          intro hm
          apply hz
          rw [← hpp, S.list]
          exact List.mem_append_right _ hm
        · rw [S.parent, if_neg hpt, hpp]
      rcases Edit.split_spec hs.graph (by rw [hpp]; exact G.inF) (by rw [hpp]; exact hpm) hsp with ⟨h', _⟩ | ⟨_, S⟩
      · cases h'
      · refine hnp S ?_
        have hnd := hs.tidy.nodup _ G.inF
        have hl' := S.list
        rw [hpp] at hl' ⊢
        rw [hl'] at hnd
        exact fun hm => (List.nodup_append.1 hnd).2.2 p (List.mem_append_right _ (by simp)) p hm rfl
    obtain ⟨a1, a2, a3, -, a5⟩ := hall
    have hother : ∀ c, c ≠ f.parent d → c ≠ freshBb f → f1.body c = f.body c := fun c k1 k2 => split_other hs.graph (by rw [hpp]; exact G.inF) hsp (by rw [hpp]; exact k1) k2
    have hf1 : freshBb f1 = freshBb f + 1 := by
      show f1.allBbs.foldr max 0 + 1 = _
      rw [a1, foldr_max]
      unfold freshBb
      omega
    have hw := withErr_spec f1
    change (match createAt (withErr f1) (jump y (freshBb f) (freshBb f1)) p .back with
        | .ok f3 => Out.ok (connect f3 (f.parent d) (freshBb f1)) | .err => .err | .crit => .crit | .ub => .ub) = .ok g at h
    cases hcr : createAt (withErr f1) (jump y (freshBb f) (freshBb f1)) p .back with
    | err => rw [hcr] at h; cases h
    | crit => rw [hcr] at h; cases h
    | ub => rw [hcr] at h; cases h
    | ok f3 =>
      rw [hcr] at h
      cases h
      have hlt : p < f.next := Guard.lt_of_body hs.tidy G.inF hpm
      have hpw : (withErr f1).parent p = f.parent d := by rw [hw.2.2.2.2.2.2.2.1, upd_ne _ _ (by rw [a3]; omega), a5]
      have hbn : f.parent d ≠ freshBb f1 := by
        intro e
        exact Edit.fresh_not_mem f1 (by rw [← e, a1]; exact List.mem_append_left _ G.inF)
      have hpin : p ∈ (withErr f1).body ((withErr f1).parent p) := by
        rw [hpw, hw.2.2.2.2.2.2.1, upd_ne _ _ hbn]
        rcases Edit.split_spec hs.graph (by rw [hpp]; exact G.inF) (by rw [hpp]; exact hpm) hsp with ⟨h', _⟩ | ⟨_, S⟩
        · cases h'
        · rw [S.body _ G.inF, if_pos hpp.symm]; simp
      have hA := Edit.added_createAt hcr hpin
      rw [hpw] at hA
      have hins : (connect f3 (f.parent d) (freshBb f1)).insn (f.next + 1) = jump y (freshBb f) (freshBb f1) := by
        show f3.insn _ = _
        rw [hA.insn, hw.2.1, a3, upd_same]
      have hn : n = freshBb f := by
        have := congrArg Insn.bb1 (G.insn_j.symm.trans hins)
        exact this
      have he : e = freshBb f + 1 := by
        have := congrArg Insn.bb2 (G.insn_j.symm.trans hins)
        rw [← hf1]
        exact this
      subst hn he
      refine ⟨A ++ [p], B, hs, hc, G, ho, ?_, fun u x => ?_, fun c hcn => ?_, hl, rfl, rfl⟩
      · unfold operands
        exact List.mem_append_left _ (List.mem_append_left _ (List.mem_of_getElem? hv))
      · show (f3.users u).count x = _
        rw [hA.users, Edit.alloc_count]
        have hwu : ∀ u x, ((withErr f1).users u).count x = if u = f.next then 0 else (f.users u).count x := by
          intro u x
          have := (Edit.added_createBb (newBb f1) mkThrow (freshBb f1) .back).users
          show (((Edit.createBb (newBb f1) mkThrow (freshBb f1) .back).users u).count x) = _
          rw [this, Edit.alloc_count]
          have e1 : (newBb f1).next = f.next := a3
          have e2 : (newBb f1).users = f.users := a2
          rw [e1, e2]
          simp [operands, mkThrow, raw]
        rw [hw.2.1, a3, hwu, hf1]
        congr 1
        by_cases k1 : u = f.next + 1
        · rw [if_pos k1, if_pos (.inr k1)]
        · by_cases k2 : u = f.next
          · rw [if_neg k1, if_pos k2, if_pos (.inl k2)]
          · rw [if_neg k1, if_neg k2, if_neg (by omega)]
      · have hcn' : c ∉ f.allBbs ∧ c ≠ freshBb f ∧ c ≠ freshBb f + 1 := by
          refine ⟨fun k => hcn (G.mem_all.2 (.inl k)), fun k => hcn (G.mem_all.2 (.inr (.inl k))), fun k => hcn (G.mem_all.2 (.inr (.inr k)))⟩
        have hcb : c ≠ f.parent d := fun k => hcn'.1 (k ▸ G.inF)
        show f3.body c = _
        rw [hA.body c hcb, hw.2.2.2.2.2.2.1, upd_ne _ _ (by rw [hf1]; exact hcn'.2.2), hother c hcb hcn'.2.1]

/-! ## All guards -/

/-- A function whose throws are those of guards, and which is fit for code generation without them. -/
structure Guardable (f : Fn) : Prop where
  shape : Shape f
  code : Code (noThrows f)
  throws : ∀ x, InBody f x → (f.insn x).op = .throw → f.insn x = mkThrow

theorem Code.noThrows_eq {f : Fn} (h : Code f) : noThrows f = f := by
  unfold noThrows Throw.translateThrow
  have : (fun x => if x ∈ f.allBbs.flatMap f.body ∧ (f.insn x).op = .throw then { f.insn x with op := .ret, vals := [Edit.const32 1] } else f.insn x) = f.insn := by
    funext x
    rw [if_neg]
    rintro ⟨hx, ho⟩
    obtain ⟨b, hb, hx⟩ := List.mem_flatMap.1 hx
    exact (lifted_not (h.insn x ⟨b, hb, hx⟩).op).2.2.2.2.1 ho
  rw [this]

theorem Code.guardable {f : Fn} (h : Code f) : Guardable f :=
  ⟨h.shape, by rw [h.noThrows_eq]; exact h, fun x hx ho => absurd ho (lifted_not (h.insn x hx).op).2.2.2.2.1⟩

/-- No phi has the block of `d` as a label. -/
def Unlabelled (f : Fn) (d : Nat) : Prop := ∀ x, InBody f x → (f.insn x).op = .phi → ∀ o ∈ (f.insn x).phi, o.1 ≠ f.parent d

/-- All instructions are old, throw, or compare an operand of an old division with zero. -/
def Checked (f g : Fn) : Prop := ∀ x, InBody g x → (InBody f x ∧ g.insn x = f.insn x) ∨ g.insn x = mkThrow ∨
  ∃ y n e d, g.insn x = DivZero.jump y n e ∧ InBody f d ∧ (f.insn d).op = .div ∧ .insn y ∈ Edit.operands (f.insn d)

theorem checkAll_code : ∀ (ds : List Nat) {f g : Fn}, Guardable f → ds.Nodup → (∀ d ∈ ds, InBody f d ∧ (f.insn d).op = .div) → (∀ d ∈ ds, Unlabelled f d) → checkAll ds f = .ok g →
    Guardable g ∧ g.sp = f.sp ∧ g.args = f.args ∧ (NoPrintk f → NoPrintk g) ∧ Checked f g := by
  intro ds
  induction ds with
  | nil =>
    intro f g h _ _ _ e
    cases e
    exact ⟨h, rfl, rfl, id, fun x hx => .inl ⟨hx, rfl⟩⟩
  | cons d ds ih =>
    intro f g h hnd hin hlab e
    have hnd' := List.nodup_cons.1 hnd
    obtain ⟨hd, ho⟩ := hin d (List.mem_cons_self ..)
    have hin' : ∀ x ∈ ds, InBody f x ∧ (f.insn x).op = .div := fun x hx => hin x (List.mem_cons_of_mem _ hx)
    have hlab' : ∀ x ∈ ds, Unlabelled f x := fun x hx => hlab x (List.mem_cons_of_mem _ hx)
    simp only [checkAll] at e
    cases hc : checkDiv f d with
    | err => rw [hc] at e; cases e
    | crit => rw [hc] at e; cases e
    | ub => rw [hc] at e; cases e
    | ok f1 =>
      rw [hc] at e
      dsimp only at e
      have skip : f1 = f → Guardable g ∧ g.sp = f.sp ∧ g.args = f.args ∧ (NoPrintk f → NoPrintk g) ∧ Checked f g := fun k => by subst k; exact ih h hnd'.2 hin' hlab' e
      unfold checkDiv at hc
      cases hv : ((f.insn d).vals[1]? : Option Val) with
      | none => rw [hv] at hc; cases hc
      | some v =>
        rw [hv] at hc
        cases v with
        | insn y =>
          dsimp only at hc
          cases hp : Edit.prevInsn f d with
          | none => rw [hp] at hc; cases hc; exact skip rfl
          | some p =>
            rw [hp] at hc
            dsimp only at hc
            obtain ⟨l, B, A⟩ := addCheck_adds h.shape h.code hd ho hv (hlab d (List.mem_cons_self ..)) hp hc
            have G := A.guard
            have h1 : Guardable f1 := by
              refine ⟨A.shapeG, A.codeG, fun x hx hox => ?_⟩
              rcases A.inBody.1 hx with k | k | k
              · have hlt := h.shape.tidy.lt x (.inr (.inr k))
                rw [G.insn_old hlt] at hox ⊢
                exact h.throws x k hox
              · rw [k, G.insn_t]
              · rw [k, G.insn_j] at hox; cases hox
            have hins : ∀ x, InBody f x → f1.insn x = f.insn x := fun x hx => G.insn_old (h.shape.tidy.lt x (.inr (.inr hx)))
            obtain ⟨r1, r2, r3, r4, r5⟩ := ih h1 hnd'.2 (fun x hx => ⟨A.inBody.2 (.inl (hin' x hx).1), by rw [hins x (hin' x hx).1]; exact (hin' x hx).2⟩) (by
              intro z hz x hx hox o hom
              have hxf : InBody f x := by
                rcases A.inBody.1 hx with k | k | k
                · exact k
                · rw [k, G.insn_t] at hox; cases hox
                · rw [k, G.insn_j] at hox; cases hox
              rw [hins x hxf] at hox hom
              obtain ⟨c, hc', hxc⟩ := hxf
              have hof := h.shape.labels c hc' x hxc hox o hom
              have hzl := h.shape.tidy.lt z (.inr (.inr (hin' z hz).1))
              rw [G.parent, if_neg (by omega), if_neg (by omega)]
              split
              · intro k; exact G.freshN (k ▸ hof)
              · exact hlab' z hz x ⟨c, hc', hxc⟩ hox o hom) e
            refine ⟨r1, r2.trans G.sp, r3.trans G.args, fun h6 => r4 fun x hx hox => ?_, fun x hx => ?_⟩
            · rcases A.inBody.1 hx with k | k | k
              · rw [hins x k] at hox ⊢; exact h6 x k hox
              · rw [k, G.insn_t] at hox; cases hox
              · rw [k, G.insn_j] at hox; cases hox
            · rcases r5 x hx with ⟨k, e1⟩ | e1 | ⟨y', n', e', d', e1, k, ho', hm⟩
              · rcases A.inBody.1 k with k | k | k
                · exact .inl ⟨k, e1.trans (hins x k)⟩
                · rw [e1, k, G.insn_t]; exact .inr (.inl rfl)
                · rw [e1, k, G.insn_j]; exact .inr (.inr ⟨_, _, _, d, rfl, hd, ho, A.uses⟩)
              · exact .inr (.inl e1)
              · rcases A.inBody.1 k with k | k | k
                · rw [hins d' k] at ho' hm; exact .inr (.inr ⟨y', n', e', d', e1, k, ho', hm⟩)
                · rw [k, G.insn_t] at ho'; cases ho'
                · rw [k, G.insn_j] at ho'; cases ho'
        | _ => cases hc; exact skip rfl

/-! ## `post` and `translate_throw` behind the guards -/

variable {f : Fn}

theorem Guardable.wellFormed (h : Guardable f) {R : List Nat} (hR : ∀ b ∈ R, b ∈ f.allBbs) : WellFormed f R := by
  have w := h.code.wellFormed (R := R) hR
  have hx : ∀ {b x}, b ∈ R → x ∈ f.body b → (noThrows f).insn x = f.insn x ∨ (f.insn x = mkThrow ∧ (noThrows f).insn x = retOne) := by
    intro b x hb hx
    rcases noThrows_cases f x with ⟨e, _⟩ | ⟨e, k, ko⟩
    · exact .inl e
    · refine .inr ⟨h.throws x k ko, ?_⟩
      rw [e, h.throws x k ko]
      rfl
  refine ⟨w.parent, fun b hb x hm => ?_, fun b hb A x B e hox a ha => ?_, fun y hy u hu => noThrows_refs f u y (w.users y hy u hu), fun b hb x hm y hr => ?_, w.preds, w.succs, fun b hb A x B e hox => ?_, fun b hb hn => ?_⟩
  · rcases hx hb hm with e | ⟨e, _⟩
    · have k := w.insns b hb x hm
      rw [e] at k
      have hno := lifted_not (h.code.insn x ⟨b, hR b hb, hm⟩).op
      rw [e] at hno
      refine ⟨k.arity, k.swap, ?_, ?_, k.fid, k.width, k.size, k.consts, k.phiConsts, k.addrConst⟩
      · rintro (q | q); exact absurd q hno.2.2.2.1; exact absurd q hno.2.2.1
      · intro q; exact absurd q hno.2.2.2.2.2.1
    · rw [e]
      refine ⟨?_, ?_, ?_, ?_, ?_, ?_, ?_, ?_, ?_, ?_⟩
      · intro n hn; cases hn; rfl
      all_goals simp [mkThrow, Norm.Op.binAlu, Norm.Op.condJmp]
  · have hp : ∀ z, ((noThrows f).insn z).op = .phi ↔ (f.insn z).op = .phi := fun z => noThrows_op (by simp) (by simp)
    exact (hp a).1 (w.phis b hb A x B e ((hp x).2 hox) a ha)
  · refine w.listed b hb x hm y ?_
    rcases hx hb hm with e | ⟨e, _⟩
    · rw [e]; exact hr
    · rw [e, Edit.refs_pos] at hr
      simp [operands, mkThrow, raw] at hr
  · obtain ⟨k1, k2⟩ := w.jumps b hb A x B e (by rw [noThrows_ends]; exact hox)
    refine ⟨k1, ?_⟩
    unfold SuccsOk at k2 ⊢
    dsimp only at k2 ⊢
    have hm : x ∈ f.body b := by have e' : f.body b = _ := e; rw [e']; simp
    rcases hx hb hm with e1 | ⟨e1, e2⟩
    · rw [e1] at k2; exact k2
    · rw [e2] at k2
      rw [e1]
      have k3 : (noThrows f).succs b = [] := by simpa [retOne, mkThrow] using k2
      simpa [mkThrow] using (show f.succs b = [] from k3)
  · exact w.fall b hb fun x hm => by rw [noThrows_ends]; exact hn x hm

theorem Guardable.post (h : Guardable f) : ∃ k R, LaidOut (noThrows f) R ∧ ∀ fuel, k ≤ fuel → ∀ check, Pipe.post fuel check f = .ok (f, R) ∧ Pipe.post fuel check (noThrows f) = .ok (noThrows f, R) := by
  obtain ⟨k, R, hl, hlay, hk⟩ := h.code.post
  refine ⟨k, R, hl, fun fuel hf check => ⟨?_, hk fuel hf check⟩⟩
  have hwf := (Check.C24_checker f R).2 (h.wellFormed fun b hb => (hl.mem b).1 hb)
  have hg := h.code.genSucc
  rw [noThrows_graph] at hg hlay
  unfold Pipe.post
  rw [show Layout.genSucc (graphOf f) f.allBbs = .ok (graphOf f) from hg, Out.ok_bind]
  have e : withSuccs f (graphOf f) = f := rfl
  dsimp only
  rw [e, Layout.layout_mono (show Layout.layout (graphOf f) k f.entry = some (.ok R) from hlay) hf]
  dsimp only
  rw [Out.ok_bind]
  cases check
  · rfl
  · rw [if_pos rfl, hwf]; rfl

theorem translate_same (f : Fn) {R : List Nat} (h : ∀ b, b ∈ R ↔ b ∈ f.allBbs) : Throw.translateThrow R f = noThrows f := by
  unfold noThrows Throw.translateThrow
  have : ∀ x, x ∈ R.flatMap f.body ↔ x ∈ f.allBbs.flatMap f.body := fun x => by simp only [List.mem_flatMap, h]
  simp only [this]

theorem Guardable.noEcall (h : Guardable f) {R : List Nat} (hR : ∀ b ∈ R, b ∈ f.allBbs) (k : Nat) : Ecall.handleEcalls k R f = .ok f :=
  Ecall.C48_none fun b hb x hx ho => absurd ((noThrows_op (by simp) (by simp)).2 ho) (lifted_not (h.code.insn x ⟨b, hR b hb, hx⟩).op).2.2.2.2.2.2

/-! ## What becomes of a throw -/

/-- `noThrows f` does what `f` does, but returns 1 where `f` throws. -/
theorem run_noThrows (h : Guardable f) (W : IR.World) (σ : IR.St) (k : Nat) :
    match runFn W f k σ with
    | .thrown τ => runFn W (noThrows f) k σ = .done 1 τ
    | .done v τ => runFn W (noThrows f) k σ = .done v τ
    | .stuck => runFn W (noThrows f) k σ = .stuck
    | .running b _ τ => ∃ r, runFn W (noThrows f) k σ = .running b r τ := by
  exact Throw.C32_pipeline_partial h.shape (fun _ hb => hb) (fun _ hb => Count.Conn.mem h.shape hb) W σ k

end Verif.Pipe
