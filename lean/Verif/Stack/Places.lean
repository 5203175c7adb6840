import Verif.Stack.Props
import Verif.Loc.Run
import Verif.Spec.Moved
import Verif.Cg.Examples
/-!
# C38: moving the stack of the program, on places
-/
namespace Verif.Stack
open Verif Verif.IR Verif.Loc Verif.Edit

theorem MovedL.agree {d : BitVec 64} {l : Nat → Nat} {τ τ' : Loc.St} (h : MovedL d τ τ') : Agree (fun y => l y ≠ 10) (view l τ) (view l τ') :=
  ⟨fun y hy => h.cell (l y) hy, fun y hy => h.cell (l y) hy, h.mem, h.trace⟩

theorem MovedL.set {d : BitVec 64} {τ τ' : Loc.St} (h : MovedL d τ τ') {q : Nat} (hq : q ≠ 10) (v : BitVec 64) : MovedL d (τ.set q v) (τ'.set q v) := by
  refine ⟨fun r hr => ?_, ?_, h.mem, h.trace⟩
  · show (if r = q then v else τ'.cell r) = (if r = q then v else τ.cell r)
    rw [h.cell r hr]
  · show (if 10 = q then v else τ.cell 10) = (if 10 = q then v else τ'.cell 10) + d
    rw [if_neg (Ne.symm hq), if_neg (Ne.symm hq), h.sp]

theorem MovedL.call {d : BitVec 64} {τ τ' : Loc.St} (h : MovedL d τ τ') (W : Bpf.World) (fid : BitVec 32) : MovedL d (doCall W fid τ) (doCall W fid τ') := by
  have e : (argRegs fid).map τ'.cell = (argRegs fid).map τ.cell :=
    List.map_congr_left fun q hq => h.cell q (by have := argRegs_le hq; omega)
  unfold doCall
  dsimp only
  rw [e, h.mem, h.trace]
  refine ⟨fun q hq => ?_, ?_, rfl, rfl⟩
  · dsimp only
    rw [h.cell q hq]
  · exact h.sp

theorem insIn_of {f : Fn} {l : Nat → Nat} {x : Nat} (h : OneSp f l x) (hr : refs (f.insn x) f.sp = 0) : InsIn (fun y => l y ≠ 10) (f.insn x) := by
  refine ⟨fun v hv y e => h.vals y (e ▸ hv) (fun e' => vals_ne_of_refs hr v hv (by rw [e, e'])), fun ho y e => h.addr ho y e (fun e' => addr_ne_of_refs hr ho (by rw [e, e']))⟩

theorem exec_shift {W : World} {f : Fn} {l : Nat → Nat} {d : BitVec 16} {x : Nat} (hsp : l f.sp = 10) (h : OneSp f l x) (hf : Form f.sp d .rawoff (f.insn x))
    (hc : Loc.control (f.insn x).op = false) {τ τ' : Loc.St} (hm : MovedL (d.signExtend 64) τ τ') :
    OptRel' (MovedL (d.signExtend 64)) (Loc.exec W l x (f.insn x) τ) (Loc.exec W l x ((shift d f).insn x) τ') := by
  have hw := h.writes
  cases hf with
  | other hr hn =>
    have e : (shift d f).insn x = f.insn x := shiftInsn_noHole hn
    rw [e]
    have hin := insIn_of h hr
    by_cases h1 : (f.insn x).op = .alloc
    · unfold Loc.exec
      rw [h1]
      exact .some hm
    by_cases h2 : (f.insn x).op = .call
    · unfold Loc.exec
      rw [h2]
      exact .some (hm.call _ _)
    by_cases h3 : (f.insn x).op = .store
    · unfold Loc.exec
      rw [h3]
      dsimp only
      split
      · rename_i a v hv
        rw [eval_agree hm.agree (hin.vals v (by rw [hv]; simp))]
        cases eval (view l τ) v with
        | none => exact .none
        | some y => exact .some (hm.set (h.vals a (by rw [hv]; simp) (fun e' => vals_ne_of_refs hr (.insn a) (by rw [hv]; simp) (by rw [e']))) y)
      · exact .none
    by_cases h4 : (f.insn x).op = .storeraw
    · rw [exec_raw h4, exec_raw h4]
      have ha := exec_agree (σ := view l τ) (σ' := view l τ') hm.agree W x hin
      revert ha
      cases IR.exec W x (f.insn x) (view l τ) with
      | none => cases IR.exec W x (f.insn x) (view l τ') with
        | none => intro _; exact .none
        | some b => intro h; cases h
      | some a => cases IR.exec W x (f.insn x) (view l τ') with
        | none => intro h; cases h
        | some b =>
          intro h
          cases h with
          | some _ _ h => exact .some ⟨hm.cell, hm.sp, h.mem, hm.trace⟩
    · rw [exec_other h1 h2 h3 h4, exec_other h1 h2 h3 h4]
      rw [writes_other hc h1 h2 h3 h4] at hw
      have hx : l x ≠ 10 := fun e => hw (by rw [e]; simp)
      have ha := exec_agree (σ := view l τ) (σ' := view l τ') hm.agree W x hin
      revert ha
      cases IR.exec W x (f.insn x) (view l τ) with
      | none => cases IR.exec W x (f.insn x) (view l τ') with
        | none => intro _; exact .none
        | some b => intro h; cases h
      | some a => cases IR.exec W x (f.insn x) (view l τ') with
        | none => intro h; cases h
        | some b =>
          intro h
          cases h with
          | some _ _ h =>
            have e := h.env x hx
            simp only [Option.map_some]
            rw [e]
            exact .some (hm.set hx _)
  | access ho ha hk hv h1 h2 =>
    have e : (shift d f).insn x = { f.insn x with addrOff := (f.insn x).addrOff + d, addrKind := .plain } := by
      show shiftInsn d (f.insn x) = _
      unfold shiftInsn
      rw [if_pos ho, hk]
    have ea : ∀ τ : Loc.St, eval (view l τ) (f.insn x).addr = some (τ.cell 10) := fun τ => by rw [ha, ← hsp]; rfl
    have ead : τ'.cell 10 + BitVec.signExtend 64 ((f.insn x).addrOff + d) = τ.cell 10 + (f.insn x).addrOff.signExtend 64 := by
      rw [signExtend_add h1 h2, hm.sp]; ac_rfl
    have hmem : (view l τ').mem = (view l τ).mem := hm.mem
    rw [e]
    rcases ho with ho | ho
    · have hx : l x ≠ 10 := fun e => hw (by rw [writes_other hc (by rw [ho]; simp) (by rw [ho]; simp) (by rw [ho]; simp) (by rw [ho]; simp), e]; simp)
      rw [exec_other (by rw [ho]; simp) (by rw [ho]; simp) (by rw [ho]; simp) (by rw [ho]; simp),
        exec_other (by dsimp only; rw [ho]; simp) (by dsimp only; rw [ho]; simp) (by dsimp only; rw [ho]; simp) (by dsimp only; rw [ho]; simp)]
      unfold IR.exec
      simp only [ho, ea, Option.bind_eq_bind, Option.bind_some, ead, hmem]
      cases Flat.bytes (f.insn x).vrType with
      | none => exact .none
      | some n =>
        simp only [Option.bind_some, Option.map_some]
        have key : ∀ (σ : IR.St) v, (σ.set x v).env x = v := fun σ v => by simp [IR.St.set]
        rw [key, key]
        exact .some (hm.set hx _)
    · rw [exec_raw ho, exec_raw (by exact ho)]
      unfold IR.exec
      simp only [ho]
      rcases hvs : (f.insn x).vals with _ | ⟨v, _ | ⟨_, _⟩⟩
      · exact .none
      · have hve : eval (view l τ') v = eval (view l τ) v := eval_agree hm.agree fun y e => h.vals y (by rw [hvs, ← e]; simp) (fun e' => hv v (by rw [hvs]; simp) (by rw [e, e']))
        simp only [ea, Option.bind_eq_bind, Option.bind_some, ead, hmem, hve]
        cases Flat.bytes (f.insn x).vrType with
        | none => exact .none
        | some n =>
          cases eval (view l τ) v with
          | none => exact .none
          | some y => exact .some ⟨hm.cell, hm.sp, rfl, hm.trace⟩
      · exact .none
  | add c ct b ho hw' hv =>
    have e : (shift d f).insn x = mapOps (shiftVal d) (f.insn x) := by
      show shiftInsn d (f.insn x) = _
      unfold shiftInsn
      rw [if_neg (by rw [ho]; decide)]
    have hx : l x ≠ 10 := fun e => hw (by rw [writes_other hc (by rw [ho]; simp) (by rw [ho]; simp) (by rw [ho]; simp) (by rw [ho]; simp), e]; simp)
    have e1 : ∀ τ : Loc.St, IR.exec W x (f.insn x) (view l τ) = some ((view l τ).set x (τ.cell 10 + c)) := fun τ => by
      rw [← hsp]
      unfold IR.exec; simp only [ho, hw', hv]; rfl
    have e2 : ∀ τ : Loc.St, IR.exec W x (mapOps (shiftVal d) (f.insn x)) (view l τ) = some ((view l τ).set x (τ.cell 10 + (c + d.signExtend 64))) := fun τ => by
      rw [← hsp]
      unfold IR.exec mapOps; simp only [ho, hw', hv]; rfl
    have ho' : (mapOps (shiftVal d) (f.insn x)).op = .add := ho
    rw [e, exec_other (by rw [ho]; simp) (by rw [ho]; simp) (by rw [ho]; simp) (by rw [ho]; simp),
      exec_other (by rw [ho']; simp) (by rw [ho']; simp) (by rw [ho']; simp) (by rw [ho']; simp), e1, e2]
    have key : ∀ (σ : IR.St) v, (σ.set x v).env x = v := fun σ v => by simp [IR.St.set]
    simp only [Option.map_some, key]
    have : τ'.cell 10 + (c + d.signExtend 64) = τ.cell 10 + c := by rw [hm.sp]; ac_rfl
    rw [this]
    exact .some (hm.set hx _)

theorem phiAssign_shift {f : Fn} {l : Nat → Nat} {d : BitVec 16} {p : Nat} {τ τ' : Loc.St} (hm : MovedL (d.signExtend 64) τ τ') : ∀ (xs : List Nat) (e e' : Nat → BitVec 64),
    (∀ x ∈ xs, OneSp f l x ∧ Form f.sp d .rawoff (f.insn x) ∧ (f.insn x).op = .phi) → (∀ q, q ≠ 10 → e' q = e q) → e 10 = e' 10 + d.signExtend 64 →
    (Loc.phiAssign f l p τ xs e = none ∧ Loc.phiAssign (shift d f) l p τ' xs e' = none) ∨
    ∃ g g', Loc.phiAssign f l p τ xs e = some g ∧ Loc.phiAssign (shift d f) l p τ' xs e' = some g' ∧ (∀ q, q ≠ 10 → g' q = g q) ∧ g 10 = g' 10 + d.signExtend 64
  | [], e, e', _, h1, h2 => .inr ⟨e, e', rfl, rfl, h1, h2⟩
  | x :: xs, e, e', hx, h1, h2 => by
    obtain ⟨ho, hf, hop⟩ := hx x List.mem_cons_self
    cases hf with
    | access ho' => rcases ho' with ho' | ho' <;> rw [hop] at ho' <;> cases ho'
    | add _ _ _ ho' => rw [hop] at ho'; cases ho'
    | other hr hn =>
      have e1 : (shift d f).insn x = f.insn x := shiftInsn_noHole hn
      have e2 : phiVal (f.insn x) p (view l τ') = phiVal (f.insn x) p (view l τ) :=
        phiVal_agree hm.agree (fun o hoo y e => ho.phi hop o hoo y e (fun e' => phi_ne_of_refs hr hop o hoo (by rw [e, e']))) p
      simp only [Loc.phiAssign, e1, e2, Option.bind_eq_bind]
      cases phiVal (f.insn x) p (view l τ) with
      | none => exact .inl ⟨rfl, rfl⟩
      | some v =>
        simp only [Option.bind_some]
        have hlx := ho.dst hop
        refine phiAssign_shift hm xs _ _ (fun y hy => hx y (List.mem_cons_of_mem _ hy)) (fun q hq => ?_) ?_
        · rw [h1 q hq]
        · rw [if_neg (Ne.symm hlx), if_neg (Ne.symm hlx), h2]

/-- Steps that go to the same place. -/
inductive RelStep (R : Loc.St → Loc.St → Prop) : Loc.Step → Loc.Step → Prop
  | goto (b : Nat) (r : List Nat) (τ τ' : Loc.St) : R τ τ' → RelStep R (.goto b r τ) (.goto b r τ')
  | done (x : BitVec 64) : RelStep R (.done x) (.done x)
  | thrown : RelStep R .thrown .thrown
  | stuck : RelStep R .stuck .stuck

theorem shift_op (d : BitVec 16) (f : Fn) (x : Nat) : ((shift d f).insn x).op = (f.insn x).op ∧ ((shift d f).insn x).bb1 = (f.insn x).bb1 ∧
    ((shift d f).insn x).bb2 = (f.insn x).bb2 := shiftInsn_op d (f.insn x)

theorem phisOf_shift (d : BitVec 16) (f : Fn) (b : Nat) : phisOf (shift d f) b = phisOf f b ∧ codeOf (shift d f) b = codeOf f b := by
  have e := takeWhile_congr (l := f.body b) (p := fun x => ((shift d f).insn x).op == .phi) (q := fun x => (f.insn x).op == .phi)
    fun x _ => by rw [(shift_op d f x).1]
  exact ⟨e.1, e.2⟩

theorem enter_shift {f : Fn} {l : Nat → Nat} {d : BitVec 16} {R : List Nat}
    (h : ∀ b ∈ R, ∀ x ∈ f.body b, OneSp f l x ∧ Form f.sp d .rawoff (f.insn x)) {τ τ' : Loc.St} (hm : MovedL (d.signExtend 64) τ τ') {p b : Nat} (hb : b ∈ R) :
    RelStep (MovedL (d.signExtend 64)) (Loc.enter f l p b τ) (Loc.enter (shift d f) l p b τ') := by
  unfold Loc.enter
  rw [(phisOf_shift d f b).1, (phisOf_shift d f b).2]
  rcases phiAssign_shift (p := p) hm (phisOf f b) τ.cell τ'.cell (fun x hx => by
    have := h b hb x (by rw [← phisOf_append f b]; exact List.mem_append_left _ hx)
    exact ⟨this.1, this.2, phisOf_phi hx⟩) hm.cell hm.sp with ⟨e1, e2⟩ | ⟨g, g', e1, e2, h1, h2⟩
  · rw [e1, e2]; exact .stuck
  · rw [e1, e2]
    exact .goto _ _ _ _ ⟨h1, h2, hm.mem, hm.trace⟩

theorem step_shift {W : World} {f : Fn} {l : Nat → Nat} {d : BitVec 16} {R : List Nat} (hfl : Flow f R) (hsp : l f.sp = 10)
    (h : ∀ b ∈ R, ∀ x ∈ f.body b, OneSp f l x ∧ Form f.sp d .rawoff (f.insn x)) {τ τ' : Loc.St} (hm : MovedL (d.signExtend 64) τ τ') {b : Nat} (hb : b ∈ R)
    {rest : List Nat} (hr : ∀ x ∈ rest, x ∈ f.body b) :
    RelStep (MovedL (d.signExtend 64)) (Loc.step W f l b rest τ) (Loc.step W (shift d f) l b rest τ') := by
  cases rest with
  | nil =>
    unfold Loc.step
    show RelStep _ (match f.succs b with | [t] => _ | _ => _) (match f.succs b with | [t] => _ | _ => _)
    split
    · rename_i t e
      exact enter_shift h hm (hfl.succs b hb t (by rw [e]; simp))
    · exact .stuck
  | cons x rest =>
    have hx := hr x List.mem_cons_self
    obtain ⟨h1, h2⟩ := h b hb x hx
    obtain ⟨o1, o2, o3⟩ := shift_op d f x
    by_cases hc : Loc.control (f.insn x).op = true
    · have hplain : (f.insn x).op ≠ .loadraw ∧ (f.insn x).op ≠ .storeraw ∧ (f.insn x).op ≠ .add := by
        refine ⟨?_, ?_, ?_⟩ <;> (intro e; rw [e] at hc; cases hc)
      cases h2 with
      | access ho => rcases ho with ho | ho
                     · exact absurd ho hplain.1
                     · exact absurd ho hplain.2.1
      | add _ _ _ ho => exact absurd ho hplain.2.2
      | other hrf hn =>
        have e1 : (shift d f).insn x = f.insn x := shiftInsn_noHole hn
        have hin := insIn_of h1 hrf
        rcases control_cases hc with e | e | e | e | e
        · rw [step_ja e, step_ja (by rw [e1]; exact e), e1]
          exact enter_shift h hm (hfl.succs b hb _ (hfl.ja b hb x hx e))
        · rw [step_cond e, step_cond (by rw [e1]; exact e), e1, taken_agree hm.agree hin]
          have := hfl.cond b hb x hx e
          cases taken (f.insn x) (view l τ) with
          | none => exact .stuck
          | some c =>
            cases c
            · exact enter_shift h hm (hfl.succs b hb _ this.1)
            · exact enter_shift h hm (hfl.succs b hb _ this.2)
        · rw [step_ret e, step_ret (by rw [e1]; exact e), e1]
          split
          · rename_i v hv
            rw [eval_agree hm.agree (hin.vals v (by rw [hv]; simp))]
            cases eval (view l τ) v with
            | none => exact .stuck
            | some y => exact .done y
          · exact .stuck
        · rw [step_throw e, step_throw (by rw [e1]; exact e)]; exact .thrown
        · rw [step_phi e, step_phi (by rw [e1]; exact e)]; exact .stuck
    · have hc : Loc.control (f.insn x).op = false := by simpa using hc
      rw [step_plain hc, step_plain (by rw [o1]; exact hc)]
      have K := exec_shift (W := W) hsp h1 h2 hc hm
      revert K
      generalize Loc.exec W l x (f.insn x) τ = a
      generalize Loc.exec W l x ((shift d f).insn x) τ' = a'
      intro K
      cases K with
      | some h => exact .goto _ _ _ _ h
      | none => exact .stuck

theorem step_in {W : World} {f : Fn} {l : Nat → Nat} {R : List Nat} (hfl : Flow f R) {b b' : Nat} {rest rest' : List Nat} {τ τ' : Loc.St} (hb : b ∈ R)
    (hr : ∀ x ∈ rest, x ∈ f.body b) (h : Loc.step W f l b rest τ = .goto b' rest' τ') : b' ∈ R ∧ ∀ x ∈ rest', x ∈ f.body b' := by
  have he : ∀ c, c ∈ R → Loc.enter f l b c τ = .goto b' rest' τ' → b' ∈ R ∧ ∀ x ∈ rest', x ∈ f.body b' := by
    intro c hc e
    unfold Loc.enter at e
    split at e
    · cases e
      exact ⟨hc, fun x hx => by rw [← phisOf_append f b']; exact List.mem_append_right _ hx⟩
    · cases e
  cases rest with
  | nil =>
    unfold Loc.step at h
    dsimp only at h
    split at h
    · rename_i t e
      exact he t (hfl.succs b hb t (by rw [e]; simp)) h
    · cases h
  | cons x rest =>
    have hx := hr x List.mem_cons_self
    by_cases hc : Loc.control (f.insn x).op = true
    · rcases control_cases hc with e | e | e | e | e
      · rw [step_ja e] at h
        exact he _ (hfl.succs b hb _ (hfl.ja b hb x hx e)) h
      · rw [step_cond e] at h
        have := hfl.cond b hb x hx e
        split at h
        · exact he _ (hfl.succs b hb _ this.2) h
        · exact he _ (hfl.succs b hb _ this.1) h
        · cases h
      · rw [step_ret e] at h
        split at h
        · split at h <;> cases h
        · cases h
      · rw [step_throw e] at h; cases h
      · rw [step_phi e] at h; cases h
    · have hc : Loc.control (f.insn x).op = false := by simpa using hc
      rw [step_plain hc] at h
      split at h
      · cases h
        exact ⟨hb, fun y hy => hr y (List.mem_cons_of_mem _ hy)⟩
      · cases h

theorem run_shift {W : World} {f : Fn} {l : Nat → Nat} {d : BitVec 16} {R : List Nat} (hfl : Flow f R) (hsp : l f.sp = 10)
    (h : ∀ b ∈ R, ∀ x ∈ f.body b, OneSp f l x ∧ Form f.sp d .rawoff (f.insn x)) : ∀ (n b : Nat) (rest : List Nat) (τ τ' : Loc.St),
    MovedL (d.signExtend 64) τ τ' → b ∈ R → (∀ x ∈ rest, x ∈ f.body b) →
    MovedOut (d.signExtend 64) (Loc.run W f l n b rest τ) (Loc.run W (shift d f) l n b rest τ')
  | 0, b, rest, τ, τ', hm, _, _ => .running _ _ _ _ hm
  | n + 1, b, rest, τ, τ', hm, hb, hr => by
    have K := step_shift (W := W) hfl hsp h hm hb hr
    unfold Loc.run
    generalize e : Loc.step W f l b rest τ = s at K
    generalize Loc.step W (shift d f) l b rest τ' = s' at K
    cases K with
    | goto b' r' τ1 τ1' hm' =>
      obtain ⟨h1, h2⟩ := step_in hfl hb hr e
      exact run_shift hfl hsp h n b' r' τ1 τ1' hm' h1 h2
    | done x => exact .done _ _ _ hm
    | thrown => exact .thrown _ _ hm
    | stuck => exact .stuck

/-- **C38** on places: after registers have been assigned, `add_stack_offset` makes the function behave as before with a stack pointer (r10) that is lower by the offset,
if r10 is used for accesses at constant offsets and in `sp + constant` only, and nothing else is in r10. -/
theorem C38_places_partial (W : World) {f : Fn} {l : Nat → Nat} {d : BitVec 16} {R : List Nat} (hfl : Flow f R) (hsp : l f.sp = 10)
    (h : ∀ b ∈ R, ∀ x ∈ f.body b, OneSp f l x ∧ Form f.sp d .rawoff (f.insn x)) (n : Nat) (τ τ' : Loc.St) (hm : MovedL (d.signExtend 64) τ τ') :
    MovedOut (d.signExtend 64) (Loc.runFn W f l n τ) (Loc.runFn W (shift d f) l n τ') :=
  run_shift hfl hsp h n f.entry (f.body f.entry) τ τ' hm hfl.entry fun _ hx => hx

/-! ## Example -/

/-- A test for `NoHole`. -/
def noHoleB (i : Insn) : Bool :=
  (Edit.operands i).all (fun v => match v with | .const k _ _ _ => decide (k = .plain) | _ => true) && (!Edit.raw i.op || decide (i.addrKind = .plain))

theorem noHole_of_check {i : Insn} (h : noHoleB i = true) : NoHole i := by
  simp only [noHoleB, Bool.and_eq_true, List.all_eq_true, Bool.or_eq_true, Bool.not_eq_true', decide_eq_true_eq] at h
  refine ⟨fun v hv k c ct b e => ?_, fun hr => ?_⟩
  · have := h.1 v hv
    rw [e] at this
    exact of_decide_eq_true this
  · rcases h.2 with h2 | h2
    · rw [hr] at h2; cases h2
    · exact h2

/-- A test for `Form` with marked constants. -/
def formB (sp : Nat) (d : BitVec 16) (i : Insn) : Bool :=
  (decide (refs i sp = 0) && noHoleB i) ||
  (decide (i.op = .loadraw ∨ i.op = .storeraw) && decide (i.addr = .insn sp) && decide (i.addrKind = .rawoff) && i.vals.all (fun v => decide (v ≠ .insn sp)) &&
    decide (-32768 ≤ i.addrOff.toInt + d.toInt) && decide (i.addrOff.toInt + d.toInt < 32768)) ||
  (decide (i.op = .add) && decide (i.aluOp = .w64) && (match i.vals with | [.insn y, .const .rawoff _ _ _] => decide (y = sp) | _ => false))

theorem form_of_check {sp : Nat} {d : BitVec 16} {i : Insn} (h : formB sp d i = true) : Form sp d .rawoff i := by
  simp only [formB, Bool.or_eq_true, Bool.and_eq_true, decide_eq_true_eq, List.all_eq_true] at h
  rcases h with (⟨h1, h2⟩ | ⟨⟨⟨⟨⟨h1, h2⟩, h3⟩, h4⟩, h5⟩, h6⟩) | ⟨⟨h1, h2⟩, h3⟩
  · exact .other h1 (noHole_of_check h2)
  · exact .access h1 h2 h3 h4 h5 h6
  · split at h3
    · rename_i y c ct b e
      have hy : y = sp := of_decide_eq_true h3
      exact .add c ct b h1 h2 (by rw [e, hy])
    · cases h3

/-- A test for `OneSp`. -/
def oneSpB (f : Fn) (l : Nat → Nat) (x : Nat) : Bool :=
  let ok (v : Val) : Bool := match v with | .insn y => decide (y = f.sp) || decide (l y ≠ 10) | _ => true
  (f.insn x).vals.all ok && (!decide ((f.insn x).op = .loadraw ∨ (f.insn x).op = .storeraw) || ok (f.insn x).addr) &&
  (!decide ((f.insn x).op = .phi) || ((f.insn x).phi.all (fun o => ok o.2) && decide (l x ≠ 10))) && decide (10 ∉ writes l x (f.insn x))

theorem oneSp_of_check {f : Fn} {l : Nat → Nat} {x : Nat} (h : oneSpB f l x = true) : OneSp f l x := by
  simp only [oneSpB, Bool.and_eq_true, List.all_eq_true, Bool.or_eq_true, Bool.not_eq_true', decide_eq_true_eq, decide_eq_false_iff_not] at h
  obtain ⟨⟨⟨h1, h2⟩, h3⟩, h4⟩ := h
  refine ⟨fun y hy hn => ?_, fun ho y e hn => ?_, fun ho o hm y e hn => ?_, h4, fun ho => ?_⟩
  · exact (by simpa using h1 _ hy : y = f.sp ∨ l y ≠ 10).resolve_left hn
  · rcases h2 with h2 | h2
    · exact absurd ho h2
    · rw [e] at h2
      exact (by simpa using h2 : y = f.sp ∨ l y ≠ 10).resolve_left hn
  · rcases h3 with h3 | h3
    · exact absurd ho h3
    · have := h3.1 o hm
      rw [e] at this
      exact (by simpa using this : y = f.sp ∨ l y ≠ 10).resolve_left hn
  · rcases h3 with h3 | h3
    · exact absurd ho h3
    · exact h3.2

/-- `exIs` with its constants marked: 2 and 3 are in r2. -/
def exP : Fn := fnOf [Edit.mkStoreraw .t64 (.insn 0) (-8) .rawoff (Edit.const64 7), Edit.mkBin .add .w64 (.insn 0) (.const .rawoff (-8) .w32 .none),
   Edit.mkLoadraw .t64 (.insn 2) 0 .plain, ret 3] [1, 2]

def exL (x : Nat) : Nat := if x = 0 then 10 else 2

def cellsAt (s : BitVec 64) : Loc.St := ⟨fun q => if q = 10 then s else 0, fun _ => 0, []⟩

example : Cg.flowB exP [0] = true ∧ exL exP.sp = 10 := by decide +kernel

example : ∀ b ∈ [0], ∀ x ∈ exP.body b, OneSp exP exL x ∧ Form exP.sp (-16) .rawoff (exP.insn x) := by
  intro b hb x hx
  have h : ([0] : List Nat).all (fun b => (exP.body b).all (fun x => oneSpB exP exL x && formB exP.sp (-16) (exP.insn x))) = true := by decide +kernel
  simp only [List.all_eq_true, Bool.and_eq_true] at h
  exact ⟨oneSp_of_check (h b hb x hx).1, form_of_check (h b hb x hx).2⟩

/-- Both return 7: the one that works at 0x1000 - 16, and the moved one at 0x1000. -/
example : (match Loc.runFn Lift.exWI exP exL 20 (cellsAt (0x1000 - 16)) with | .done x _ => some x | _ => none) = some 7 ∧
    (match Loc.runFn Lift.exWI (shift (-16) exP) exL 20 (cellsAt 0x1000) with | .done x _ => some x | _ => none) = some 7 := by
  decide +kernel

end Verif.Stack
