import Verif.Live.Lemmas
import Verif.RA.Props
/-!
# Properties of the liveness and conflict analyses (C34, C51)
-/
namespace Verif.Live
open Verif Verif.IR

theorem ok_of {f : Fn} (ht : Tidy f) (hg : Graph f) (hu : UsersListed f) : Ok f := by
  refine ⟨ht.parent, ht.nodup, ?_, ?_⟩
  · intro b hb c hc
    have h1 := (hg.succs b hb).2 c hc
    exact ⟨h1, (hg.sym b hb c h1).1 hc⟩
  · intro b hb s hs v hr
    have hl : Live f s := Or.inr (Or.inr ⟨b, hb, hs⟩)
    exact ((hu v (ht.closed s v hl hr)).1 s hl).2 hr

/-- **C34**: if some path from a point uses a virtual register before it is defined again, the register is in the
live set computed for the point: the live-in set of the next instruction and the live-out set of the one before. -/
theorem C34_liveness {f : Fn} (ht : Tidy f) (hg : Graph f) (hu : UsersListed f) {R : List Nat}
    {dst : Nat → Option Nat} {fin : Nat → Bool} {l : L} (h : liveness f R dst fin = .ok l)
    {v : Nat} (hv : v ∈ insns f R) (hd : dst v ≠ none) (hf : fin v = false)
    {b : Nat} (hb : b ∈ f.allBbs) {pre rest : List Nat} {s : Nat} (e : f.body b = pre ++ s :: rest) :
    (Needed f dst v b (s :: rest) → v ∈ l.inn s) ∧ (Needed f dst v b rest → v ∈ l.out s) :=
  (liveness_spec (ok_of ht hg hu) h).2.2 v hv hd hf b hb pre s rest e

/-- **C34**: the analysis ends (its recursion never gets deeper than the number of blocks) and does not fail. -/
theorem C34_terminates {f : Fn} (ht : Tidy f) (hg : Graph f) (hu : UsersListed f) {R : List Nat}
    (hR : ∀ b ∈ R, b ∈ f.allBbs)
    (hspecial : ∀ x, x = f.sp ∨ x ∈ f.args → ∀ y, refs (f.insn x) y = 0)
    (hphi : ∀ b ∈ f.allBbs, ∀ p ∈ f.body b, (f.insn p).op = .phi →
      (f.insn p).vals = [] ∧ ∀ o ∈ (f.insn p).phi, o.1 ∈ f.allBbs)
    (dst : Nat → Option Nat) (hd : ∀ x d, dst x = some d → d = x) (fin : Nat → Bool) :
    ∃ l, liveness f R dst fin = .ok l := by
  have hin : ∀ v ∈ insns f R, ∀ s ∈ f.users v, ∃ b ∈ f.allBbs, s ∈ f.body b ∧ 0 < refs (f.insn s) v := by
    intro v hv s hs
    obtain ⟨b, hb, hvb⟩ := List.mem_flatMap.1 hv
    have hlv : Live f v := Or.inr (Or.inr ⟨b, hR b hb, hvb⟩)
    obtain ⟨h1, h2⟩ := hu v hlv
    have hls := h2 s hs
    have hr := (h1 s hls).1 hs
    rcases hls with h | h | ⟨b', hb', h⟩
    · rw [hspecial s (Or.inl h)] at hr; cases hr
    · rw [hspecial s (Or.inr h)] at hr; cases hr
    · exact ⟨b', hb', h, hr⟩
  have hc : Closed f R := by
    refine ⟨fun b hb => (hg.preds b hb).2, ?_, ?_⟩
    · intro v hv s hs
      obtain ⟨b, hb, h1, _⟩ := hin v hv s hs
      rw [ht.parent b hb s h1]; exact hb
    · intro v hv s hs hp
      obtain ⟨b, hb, h1, h2⟩ := hin v hv s hs
      obtain ⟨h3, h4⟩ := hphi b hb s h1 hp
      refine ⟨?_, ?_⟩
      · unfold refs at h2
        rw [if_pos hp, h3] at h2
        simp only [List.count_nil, hp, reduceCtorEq, or_self, false_and, if_false, Nat.zero_add, Nat.add_zero] at h2
        obtain ⟨o, ho, ho'⟩ := List.countP_pos_iff.1 h2
        intro hn
        have : o.1 ∈ phiBlocks (f.insn s) v := List.mem_map.2 ⟨o, List.mem_filter.2 ⟨ho, ho'⟩, rfl⟩
        rw [hn] at this
        simp at this
      · intro b' hb'
        obtain ⟨o, ho, rfl⟩ := List.mem_map.1 hb'
        exact h4 o (List.mem_filter.1 ho).1
  obtain ⟨l, h, _⟩ := each_ends (I := fun _ => True) (as := insns f R) (g := value f dst fin) (l := L.empty) trivial
    (fun v hv l _ => by
      obtain ⟨l', h⟩ := value_ends (fin := fin) hc hv (hd v) l
      exact ⟨l', h, trivial⟩)
  exact ⟨l, h⟩

/-! ## Conflicts -/

theorem foldl_conf {g : Nat → Out (List (Nat × Nat))} : ∀ {xs : List Nat} {a : Out (List (Nat × Nat))}
    {c : List (Nat × Nat)}, xs.foldl (fun acc x => do
      let a ← acc
      let b ← g x
      .ok (a ++ b)) a = .ok c → (∃ c0, a = .ok c0 ∧ c0 ⊆ c) ∧ ∀ x ∈ xs, ∃ b, g x = .ok b ∧ b ⊆ c
  | [], a, c, h => ⟨⟨c, h, fun _ h => h⟩, by simp⟩
  | x :: xs, a, c, h => by
    rw [List.foldl_cons] at h
    obtain ⟨⟨c0, h1, h2⟩, h3⟩ := foldl_conf h
    obtain ⟨a0, rfl, h4⟩ := Out.bind_eq_ok.1 h1
    obtain ⟨b, h5, h6⟩ := Out.bind_eq_ok.1 h4
    cases h6
    refine ⟨⟨a0, rfl, fun _ h => h2 (List.mem_append_left _ h)⟩, ?_⟩
    intro y hy
    rcases List.mem_cons.1 hy with rfl | hy
    · exact ⟨b, h5, fun _ h => h2 (List.mem_append_right _ h)⟩
    · exact h3 y hy

theorem conflictReqs_ok {f : Fn} {s : RA.St} {R : List Nat} {l : L} {c : List (Nat × Nat)}
    (h : conflictReqs f s R l = .ok c) :
    RA.regPairs s ⊆ c ∧ ∀ x ∈ insns f R, ∃ b, insnConf f s l x = .ok b ∧ b ⊆ c := by
  obtain ⟨⟨c0, h1, h2⟩, h3⟩ := foldl_conf h
  cases h1
  exact ⟨h2, h3⟩

theorem insnConf_call {f : Fn} {s : RA.St} {l : L} {x : Nat} {b : List (Nat × Nat)}
    (h : insnConf f s l x = .ok b) (hop : (f.insn x).op = .call) {v : Nat} (h1 : v ∈ l.inn x) (h2 : v ∈ l.out x)
    {i : Nat} (hi : i < 6) : (s.regs i, v) ∈ b := by
  unfold insnConf at h
  obtain ⟨a, h3, h4⟩ := Out.bind_eq_ok.1 h
  cases h4
  apply List.mem_append_left
  apply List.mem_append_right
  unfold callReqs
  rw [if_pos hop]
  refine List.mem_flatMap.2 ⟨v, List.mem_filter.2 ⟨h1, by simpa using h2⟩, ?_⟩
  exact List.mem_map.2 ⟨i, List.mem_range.2 hi, rfl⟩

/-- **C51**: after the analyses and colouring along any order, a virtual register that is needed after an instruction
is not in the machine register the instruction writes to. -/
theorem C51_live_apart {f : Fn} (ht : Tidy f) (hg : Graph f) (hu : UsersListed f) {R : List Nat}
    {dst : Nat → Option Nat} {s s1 s2 : RA.St} {l : L} {order : List Nat} (hs : RA.Start s)
    (ha : analyse f R dst s = .ok (l, s1)) (hk : RA.coloring { s1 with seo := order } = .ok s2)
    {v : Nat} (hv : v ∈ insns f R) (hd : dst v ≠ none) (hf : (s.cg v).fin = false)
    (hfree : (s.cg v).pos.allocated = false)
    {b : Nat} (hb : b ∈ f.allBbs) {pre rest : List Nat} {x d : Nat} (e : f.body b = pre ++ x :: rest)
    (hn : Needed f dst v b rest) (hx : dst x = some d) (hne : d ≠ v) {r : Nat}
    (hr : (s2.cg v).pos.inReg = some r) : (s2.cg d).pos.inReg ≠ some r := by
  intro hr'
  obtain ⟨l0, h1, h2⟩ := Out.bind_eq_ok.1 ha
  obtain ⟨c, h3, h4⟩ := Out.bind_eq_ok.1 h2
  obtain ⟨s0, h5, h6⟩ := Out.bind_eq_ok.1 h4
  cases h6
  have hout := (C34_liveness ht hg hu h1 hv hd hf hb e).2 hn
  have hreq := (liveness_spec (ok_of ht hg hu) h1).1 x d v hout hx hne
  have := (RA.C35_coloring hs h5 hk).1 v d (List.mem_append_left _ hreq) r hr hr'
  rw [RA.inReg_unalloc hfree] at this
  cases this.1

/-- **C51**: a virtual register that is needed before and after a call is not in one of the registers r0..r5 that the
call destroys. -/
theorem C51_call {f : Fn} (ht : Tidy f) (hg : Graph f) (hu : UsersListed f) {R : List Nat}
    {dst : Nat → Option Nat} {s s1 s2 : RA.St} {l : L} {order : List Nat} (hs : RA.Start s)
    (ha : analyse f R dst s = .ok (l, s1)) (hk : RA.coloring { s1 with seo := order } = .ok s2)
    {v : Nat} (hv : v ∈ insns f R) (hd : dst v ≠ none) (hf : (s.cg v).fin = false)
    (hfree : (s.cg v).pos.allocated = false)
    {b : Nat} (hb : b ∈ f.allBbs) (hbR : b ∈ R) {pre rest : List Nat} {x : Nat} (e : f.body b = pre ++ x :: rest)
    (hop : (f.insn x).op = .call) (hx : dst x ≠ some v)
    (hn : Needed f dst v b rest) {r : Nat} (hr : (s2.cg v).pos.inReg = some r) : 6 ≤ r := by
  obtain ⟨l0, h1, h2⟩ := Out.bind_eq_ok.1 ha
  obtain ⟨c, h3, h4⟩ := Out.bind_eq_ok.1 h2
  obtain ⟨s0, h5, h6⟩ := Out.bind_eq_ok.1 h4
  cases h6
  have hlive := C34_liveness ht hg hu h1 hv hd hf hb e
  have hout := hlive.2 hn
  have hin := hlive.1 (.skip hx hn)
  have hxR : x ∈ insns f R := List.mem_flatMap.2 ⟨b, hbR, by rw [e]; simp⟩
  obtain ⟨b', h7, h8⟩ := (conflictReqs_ok h3).2 x hxR
  apply Nat.le_of_not_lt
  intro hlt
  have c35 := RA.C35_coloring hs h5 hk
  have hreq := h8 (insnConf_call h7 hop hin hout hlt)
  have hreg := hs.regs r (Nat.lt_trans hlt (by decide))
  have hreg2 : (s2.cg (s.regs r)).pos.inReg = some r := by
    rw [c35.2.1 _ (RA.inReg_some.1 hreg.1).1]; exact hreg.1
  have := c35.1 (s.regs r) v (List.mem_append_right _ hreq) r hreg2 hr
  rw [RA.inReg_unalloc hfree] at this
  cases this.2

/-! ## Example -/

/-- Two blocks in a loop: 10 is defined in block 0, 11 and the jump 13 in block 1 use it; 11 is a call. -/
def exF : Fn where
  insn x := if x = 10 then { op := .assign, vals := [.const .plain 1 .w64 .none] }
    else if x = 11 then { op := .call, vals := [.insn 10] }
    else if x = 12 then { op := .ja, bb1 := 1 }
    else if x = 13 then { op := .jeq, vals := [.insn 10, .insn 11], bb1 := 2, bb2 := 1 }
    else if x = 14 then { op := .ret, vals := [.insn 11] }
    else { op := .reg }
  users x := if x = 10 then [11, 13] else if x = 11 then [13, 14] else []
  next := 15
  parent x := if x = 11 ∨ x = 13 then 1 else if x = 14 then 2 else 0
  body b := if b = 0 then [10, 12] else if b = 1 then [11, 13] else if b = 2 then [14] else []
  preds b := if b = 1 then [0, 1] else if b = 2 then [1] else []
  succs b := if b = 0 then [1] else if b = 1 then [2, 1] else []
  allBbs := [0, 1, 2]
  entry := 0
  sp := 9
  args := []

def exDst (x : Nat) : Option Nat := if x = 10 ∨ x = 11 then some x else none

theorem exF_live {x : Nat} (h : IR.Live exF x) : x = 9 ∨ x = 10 ∨ x = 11 ∨ x = 12 ∨ x = 13 ∨ x = 14 := by
  rcases h with h | h | ⟨b, hb, h⟩
  · exact Or.inl h
  · cases h
  · have hb' : b = 0 ∨ b = 1 ∨ b = 2 := by simpa [exF] using hb
    rcases hb' with rfl | rfl | rfl <;> simp [exF] at h <;> omega

theorem exF_refs {x y : Nat} (hx : IR.Live exF x) (h : 0 < refs (exF.insn x) y) :
    (y = 10 ∧ (x = 11 ∨ x = 13)) ∨ (y = 11 ∧ (x = 13 ∨ x = 14)) := by
  rcases exF_live hx with rfl | rfl | rfl | rfl | rfl | rfl <;>
    simp [exF, refs, List.count_cons] at h <;> (repeat' split at h) <;> omega

/-- The hypotheses on the function are met by the example. -/
theorem exF_ok : Tidy exF ∧ Graph exF ∧ UsersListed exF := by
  have lv : ∀ x, x = 10 ∨ x = 11 ∨ x = 12 ∨ x = 13 ∨ x = 14 → IR.Live exF x := by
    rintro x (rfl | rfl | rfl | rfl | rfl)
    · exact Or.inr (Or.inr ⟨0, by decide, by decide⟩)
    · exact Or.inr (Or.inr ⟨1, by decide, by decide⟩)
    · exact Or.inr (Or.inr ⟨0, by decide, by decide⟩)
    · exact Or.inr (Or.inr ⟨1, by decide, by decide⟩)
    · exact Or.inr (Or.inr ⟨2, by decide, by decide⟩)
  refine ⟨⟨?_, ?_, by decide, by decide, by decide⟩, ⟨by decide, by decide, by decide⟩, ?_⟩
  · intro x hx
    rcases exF_live hx with rfl | rfl | rfl | rfl | rfl | rfl <;> decide
  · intro x y hx h
    rcases exF_refs hx h with ⟨rfl, _⟩ | ⟨rfl, _⟩
    · exact lv 10 (by simp)
    · exact lv 11 (by simp)
  · intro y hy
    constructor
    · intro x hx
      constructor
      · intro h
        rcases exF_live hy with rfl | rfl | rfl | rfl | rfl | rfl <;> simp [exF] at h <;>
          rcases h with rfl | rfl <;> decide
      · intro h
        rcases exF_refs hx h with ⟨rfl, rfl | rfl⟩ | ⟨rfl, rfl | rfl⟩ <;> decide
    · intro x h
      rcases exF_live hy with rfl | rfl | rfl | rfl | rfl | rfl <;> simp [exF] at h <;>
        rcases h with rfl | rfl <;> exact lv _ (by simp)

/-- In the example the value 10 is needed after the call 11 (on the path around the loop), is in its live-out set, and
gets a register that the call does not destroy, different from the one of 11. -/
example : Needed exF exDst 10 1 [13] := .use (by decide) (by decide)

example : RA.onOk (analyse exF [0, 1, 2] exDst (RA.exS [])) (fun r =>
    decide (10 ∈ r.1.inn 11) && decide (10 ∈ r.1.out 11) && decide (10 ∈ r.1.out 13) && decide (10 ∉ r.1.inn 14) &&
    RA.onOk (RA.coloring { r.2 with seo := [11, 10] }) (fun s2 =>
      ((s2.cg 11).pos.inReg == some 0) && ((s2.cg 10).pos.inReg == some 6))) = true := by decide +kernel

end Verif.Live
