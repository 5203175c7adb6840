import Verif.Loc.Alloc
import Verif.Cg.Examples
import Verif.Cg.NeedCheck
/-!
# C52: assigning registers keeps the meaning
-/
namespace Verif.Loc
open Verif Verif.IR Verif.Edit
open Verif.Norm (VrPos)

theorem keeps_assigned {f : Fn} {R : List Nat} {dst : Nat → Option Nat} {s s2 : RA.St} {reqs : List (Nat × Nat)} (hf : Flow f R)
    (h : AllocReady f R dst (posIn s)) (hr : Recorded f R dst s reqs) (ha : Assigned s s2 reqs) (hs : RA.Start s)
    (hfin : ∀ v, (s.cg v).fin = (s.cg v).pos.allocated) (hreg : ∀ v, (s.cg v).pos.allocated = true → (s.cg v).pos.reg ≤ 10)
    (hk : RegsKept f R (places (posIn s)) (places (posIn s2))) (W : World) (τ : St) :
    Keeps W f (places (posIn s)) f (places (posIn s2)) τ := by
  intro n
  have hap := apart_of hf h hr ha hs hfin hreg hk
  have hcode : codeOf f f.entry = f.body f.entry := by
    have := phisOf_append f f.entry
    rw [h.entry] at this
    exact this
  have hsame : Same f (places (posIn s)) (rename (places (posIn s2))) f.entry (f.body f.entry) τ τ := by
    refine ⟨fun q hq => ?_, rfl, rfl⟩
    rcases virt_or q with ⟨v, rfl⟩ | hq'
    · obtain ⟨hv, hn⟩ := needed_value hf h hq hf.entry ⟨[], rfl⟩ (by rw [← hcode]; exact h.front _ hf.entry)
      exact absurd hn (h.defined v hv)
    · rw [rename_other hq']
  have hk2 : (fun y => rename (places (posIn s2)) (places (posIn s) y)) = places (posIn s2) := funext (rename_places ha)
  have := run_ren (W := W) hf hap n hf.entry ⟨[], rfl⟩ hsame
  rw [hk2] at this
  rcases this with h | h
  · exact .inl h
  · exact .inr ⟨n, Nat.le_refl _, h⟩

/-- **C52** (partial): after liveness analysis, conflict analysis and colouring along any order, the function working on
the machine registers does what it did on the virtual registers, on every execution.  Missing: the analyses do not look at the
machine registers that are read and written directly (arguments of calls and of the function), so that these are still intact when they are
read (`RegsKept`) is assumed; see `C52_violated`. -/
theorem C52_registers_partial {f : Fn} (ht : Tidy f) (hg : Graph f) (hu : UsersListed f) {R : List Nat} {dst : Nat → Option Nat}
    {s s1 s2 : RA.St} {l : Live.L} {order : List Nat} (hf : Flow f R) (h : AllocReady f R dst (posIn s)) (hs : RA.Start s)
    (hfin : ∀ v, (s.cg v).fin = (s.cg v).pos.allocated) (hreg : ∀ v, (s.cg v).pos.allocated = true → (s.cg v).pos.reg ≤ 10)
    (ha : Live.analyse f R dst s = .ok (l, s1)) (hk : RA.coloring { s1 with seo := order } = .ok s2)
    (hr : RegsKept f R (places (posIn s)) (places (posIn s2))) :
    (∀ v ∈ order, (s.cg v).pos.allocated = false → places (posIn s2) v < 10) ∧
    ∀ W τ, Keeps W f (places (posIn s)) f (places (posIn s2)) τ := by
  obtain ⟨reqs, h1, h2⟩ := analyse_reqs ht hg hu ha
  have c35 := RA.C35_coloring hs h1 hk
  have hasg : Assigned s s2 reqs := ⟨c35.1, c35.2.1, c35.2.2.2⟩
  refine ⟨fun v hv hf => ?_, keeps_assigned hf h h2 hasg hs hfin hreg hr⟩
  rcases new_place hasg hf with h3 | ⟨r, _, h4, h5⟩
  · have h6 := c35.2.2.1 v hv
    have h7 := places_alloc (pos := posIn s2) (x := v) h6
    rw [h3] at h7
    exact absurd h7.symm (placeOf_ne_virt _ _)
  · omega

/-- **C52** (partial): the same after coalescing, if copies are neither between two values that had their registers before nor
between two conflicting ones (see `C37_violated`). -/
theorem C52_coalesced_partial {f : Fn} (ht : Tidy f) (hg : Graph f) (hu : UsersListed f) {R : List Nat} {dst : Nat → Option Nat}
    {s s1 s2 s3 : RA.St} {l : Live.L} {order : List Nat} {copies : List (Nat × Nat)} (hf : Flow f R)
    (h : AllocReady f R dst (posIn s)) (hs : RA.Start s)
    (hfin : ∀ v, (s.cg v).fin = (s.cg v).pos.allocated) (hreg : ∀ v, (s.cg v).pos.allocated = true → (s.cg v).pos.reg ≤ 10)
    (ha : Live.analyse f R dst s = .ok (l, s1)) (hk : RA.coloring { s1 with seo := order } = .ok s2)
    (hm : RA.coalescing copies s2 = .ok s3)
    (hfix : ∀ c ∈ copies, ¬ ((s.cg c.1).fin = true ∧ (s.cg c.2).fin = true))
    (hcopy : ∀ c ∈ copies, c.2 ∈ (s2.cg c.1).adj → (s.cg c.1).fin = true ∨ (s.cg c.2).fin = true)
    (hr : RegsKept f R (places (posIn s)) (places (posIn s3))) (W : World) (τ : St) :
    Keeps W f (places (posIn s)) f (places (posIn s3)) τ := by
  obtain ⟨reqs, h1, h2⟩ := analyse_reqs ht hg hu ha
  have c37 := RA.C37_coalescing_partial hs (fun v hv => by rw [← hfin]; exact hv) h1 hk hm hfix hcopy
  exact keeps_assigned hf h h2 ⟨c37.1, fun v hv => c37.2.1 v (by rw [hfin]; exact hv), c37.2.2⟩ hs hfin hreg hr W τ

/-! ## Violation -/

section
open Verif.Cg (mkFn dstOf c64 retL retI startS)

/-- Two arguments: 11 is a copy of r2, 12 of r1, in the order in which `change_fun_arg` puts them. -/
def twoArgs : Fn := mkFn [([(11, mkAssign (.insn 2)), (12, mkAssign (.insn 1)), (13, mkBin .sub .w64 (.insn 11) (.insn 12)),
  (14, mkBin .sub .w64 (.insn 13) (.insn 11)), (15, mkRet (.insn 14))], [])]

/-- **C52** is violated: 11 gets r1, and 12 is to be copied from r1 after that.  Neither the analyses nor coalescing see
that r1 is still needed: with r1 = 1 and r2 = 2 the function returns -2 and not -1. -/
theorem C52_violated : Cg.onOk (Cg.allocateC twoArgs []) (fun pos =>
    (List.map (places pos) [11, 12] == [1, 2]) && (retI twoArgs 20 == some (-1#64)) && (retL twoArgs pos 20 == some (-2#64))) = true := by
  decide +kernel

theorem twoArgs_ok : Ok twoArgs := ok_of_check (by decide +kernel) (fun _ h => Cg.mkFn_body h)

/-! ## Example -/

/-- A loop with a call and a variable: 17 puts the argument in r1, 19 takes the result from r0. -/
def loopF : Fn := mkFn [
  ([(11, mkAssign (.insn 1)), (12, { op := .alloc, vrType := .t64 }), (13, { op := .store, vals := [.insn 12, .insn 11] }), (14, mkJa 1)], [1]),
  ([(15, { op := .phi, phi := [(0, c64 0), (1, .insn 20)] }), (16, { op := .load, vals := [.insn 12], vrType := .t64 }),
    (17, mkAssign (.insn 15)), (18, { op := .call, aux := 17 }), (19, mkAssign (.insn 0)), (20, mkBin .add .w64 (.insn 19) (.insn 16)),
    (21, mkJbin .jlt .w64 (.insn 20) (c64 100) 2 1)], [2, 1]),
  ([(22, mkRet (.insn 20))], [])]

def loopS : RA.St := startS [(17, 1)] []

def loopOrder : List Nat := [12, 11, 16, 15, 20, 19]

/-- The registers after colouring. -/
def loopK : Nat → Nat :=
  match (do
    let r ← Live.analyse loopF loopF.allBbs (dstOf loopF) loopS
    RA.coloring { r.2 with seo := loopOrder } : Out RA.St) with
  | .ok s => places (posIn s)
  | _ => id

theorem loopK_eq {l : Live.L} {s1 s2 : RA.St} (ha : Live.analyse loopF loopF.allBbs (dstOf loopF) loopS = .ok (l, s1))
    (hk : RA.coloring { s1 with seo := loopOrder } = .ok s2) : loopK = places (posIn s2) := by
  unfold loopK
  rw [ha, Out.ok_bind, hk]

theorem loopF_conn : ∀ b ∈ [0, 1, 2], Conn loopF b := by
  have h0 : Conn loopF 0 := .entry
  have h1 : Conn loopF 1 := .step h0 (by decide)
  have h2 : Conn loopF 2 := .step h1 (by decide)
  simp [h0, h1, h2]

/-- The hypotheses of `C52_registers_partial` are met by the example: the analyses and colouring succeed, -/
theorem loop_runs : ∃ l s1 s2, Live.analyse loopF loopF.allBbs (dstOf loopF) loopS = .ok (l, s1) ∧
    RA.coloring { s1 with seo := loopOrder } = .ok s2 := by
  have h : Cg.onOk (Live.analyse loopF loopF.allBbs (dstOf loopF) loopS) (fun r =>
      Cg.onOk (RA.coloring { r.2 with seo := loopOrder }) (fun _ => true)) = true := by decide +kernel
  obtain ⟨r, hr, h⟩ := Cg.of_onOk h
  obtain ⟨s2, hs, _⟩ := Cg.of_onOk h
  exact ⟨r.1, r.2, s2, hr, hs⟩

theorem startS_far {fixed : List (Nat × Nat)} {vars : List Nat} {x y : Nat} (h1 : 10 < places (posIn (startS fixed vars)) x)
    (h2 : places (posIn (startS fixed vars)) x = places (posIn (startS fixed vars)) y) : x = y := by
  have key : ∀ z, 10 < places (posIn (startS fixed vars)) z → places (posIn (startS fixed vars)) z = virt z := by
    intro z hz
    cases ha : (posIn (startS fixed vars) z).allocated with
    | false => exact places_free ha
    | true =>
      rw [places_alloc ha] at hz
      have hsp : (posIn (startS fixed vars) z).spilled = 0 := by
        simp only [posIn, posOf, startS]
        split
        · rfl
        · split <;> rfl
      rw [placeOf_reg hsp] at hz
      have := (posIn (startS fixed vars) z).reg.isLt
      omega
  have h3 := key x h1
  have h4 := key y (h2 ▸ h1)
  rw [h3, h4] at h2
  exact virt_inj h2

/-- and the function is in the required shape. -/
theorem loop_ready : Tidy loopF ∧ Graph loopF ∧ UsersListed loopF ∧ Flow loopF [0, 1, 2] ∧
    AllocReady loopF [0, 1, 2] (dstOf loopF) (posIn loopS) ∧ RegsKept loopF [0, 1, 2] (places (posIn loopS)) loopK := by
  have hok : Ok loopF := ok_of_check (by decide +kernel) (fun _ h => Cg.mkFn_body h)
  refine ⟨hok.tidy, ⟨by decide +kernel, by decide +kernel, by decide +kernel⟩, hok.users.listed, Cg.flow_of_check (by decide +kernel),
    Cg.ready_of_check (E := fun b => if b = 0 then [0, 1] else if b = 1 then [0, 12] else [20])
      (EL := fun b => if b = 0 then [1] else if b = 1 then [virt 12, virt 15] else [virt 20])
      (by decide +kernel) loopF_conn,
    Cg.kept_of_check (EL := fun b => if b = 0 then [1] else if b = 1 then [virt 12, virt 15] else [virt 20])
      (ys := [11, 12, 15, 16, 17, 19, 20]) (by decide +kernel) (fun x y h1 h2 => startS_far h1 h2)⟩

/-- 12 is needed across the call. -/
example : 6 ≤ loopK 12 ∧ loopK 12 < 10 ∧ loopK 17 = 1 := by decide +kernel

end

end Verif.Loc
