import Verif.RA.Spill
/-!
# Properties of the register allocator (C35, C36, C37)
-/
namespace Verif.RA
open Verif

/-- The data at the start of an iteration (after `init_cg` and `clean_cg_data`, core/ir_cg.c:107-162, 637-662): the
machine registers are in place, no conflict is recorded, a value without a place is not on the stack. -/
structure Start (s : St) : Prop where
  regs : ∀ i, i < colors → (s.cg (s.regs i)).pos.inReg = some i ∧ (s.cg (s.regs i)).fin = true
  empty : ∀ v, (s.cg v).adj = []
  free : ∀ v, (s.cg v).pos.allocated = false → (s.cg v).pos.spilled = 0

theorem Start.gr {s : St} (h : Start s) : Gr s := by
  refine ⟨?_, ?_, ?_, ?_⟩
  · intro u v hv; rw [h.empty] at hv; simp at hv
  · intro u v hv; rw [h.empty] at hv; simp at hv
  · intro u; rw [h.empty]; simp
  · intro u hv; rw [h.empty] at hv; simp at hv

/-- The same graph with an order. -/
theorem Gr.ofSame {s s' : St} (h : SameGraph s s') (g : Gr s) : Gr s' := by
  refine ⟨?_, ?_, ?_, ?_⟩
  · intro u v; rw [h.adj, h.adj]; exact g.sym u v
  · intro u v hv
    rw [h.adj] at hv
    rcases g.vert u v hv with k | ⟨i, hi, k⟩
    · exact Or.inl (by rw [h.pos]; exact k)
    · exact Or.inr ⟨i, hi, by rw [h.regs]; exact k⟩
  · intro u; rw [h.adj]; exact g.nodup u
  · intro u hv
    rw [h.adj] at hv
    rw [h.regs]
    exact g.loop u hv

/-- Two values of which a conflict was recorded: they are in different registers in every later assignment that keeps
the places given before, in which neighbours in the graph are apart. -/
theorem apart_requested {s0 s1 s : St} (hr : RegsOk s0) {reqs : List (Nat × Nat)} (hc : conflicts reqs s0 = .ok s1)
    (hadj : ∀ x, (s.cg x).adj = (s1.cg x).adj)
    (kept : ∀ x, (s0.cg x).fin = true → (s.cg x).pos = (s0.cg x).pos) (ha : Apart s)
    {a b : Nat} (hm : (a, b) ∈ reqs) {r : Nat} (h1 : (s.cg a).pos.inReg = some r)
    (h2 : (s.cg b).pos.inReg = some r) :
    (s0.cg a).pos.inReg = some r ∧ (s0.cg b).pos.inReg = some r := by
  have onstack : ∀ x, rep s0 x = .ok none → (s.cg x).pos.inReg ≠ some r := by
    intro x hx hs
    have := rep_none hx
    have hfin : (s0.cg x).fin = true := by
      unfold rep at hx
      dsimp only at hx
      rw [this.1] at hx
      simp only [if_true] at hx
      split at hx
      · cases hx
      · rename_i h; simpa using h
    rw [kept x hfin] at hs
    exact this.2 (inReg_some.1 hs).2.1
  have rep_in : ∀ x q, rep s0 x = .ok (some q) → (s.cg x).pos.inReg = some r → (s.cg q).pos.inReg = some r ∧
      ((q = x ∧ (s0.cg x).fin = false) ∨ ((s0.cg x).pos.inReg = some r ∧ q = s0.regs r ∧ r < colors)) := by
    intro x q hx hs
    rcases rep_some hx with ⟨rfl, _, hf⟩ | ⟨h3, h4, h5, h6, h7⟩
    · exact ⟨hs, Or.inl ⟨rfl, hf⟩⟩
    · rw [kept x h5] at hs
      have e := (inReg_some.1 hs).2.2
      have k := hr _ h6
      rw [e] at k h7 h6
      refine ⟨?_, Or.inr ⟨hs, h7, h6⟩⟩
      rw [h7, kept _ k.2]
      exact k.1
  obtain ⟨hne, h3 | h3 | ⟨q1, q2, h3, h4, h5⟩⟩ := conflicts_edge hc hm
  · exact absurd h1 (onstack a h3)
  · exact absurd h2 (onstack b h3)
  · obtain ⟨k1, k2⟩ := rep_in a q1 h3 h1
    obtain ⟨k3, k4⟩ := rep_in b q2 h4 h2
    rw [← hadj] at h5
    by_cases hq : q1 = q2
    · rcases k2 with ⟨e, hf⟩ | ⟨e1, e2, e3⟩
      · rcases k4 with ⟨e', _⟩ | ⟨_, e2, e3⟩
        · exact absurd (e.symm.trans (hq.trans e')) hne
        · have := (hr r e3).2
          rw [← e2, ← hq, e, hf] at this
          cases this
      · rcases k4 with ⟨e', hf⟩ | ⟨e4, _, _⟩
        · have := (hr r e3).2
          rw [← e2, hq, e', hf] at this
          cases this
        · exact ⟨e1, e4⟩
    · exact absurd k3 (ha q1 q2 h5 hq r k1)

/-- Colouring a state with the graph that the conflict analysis made, along any order. -/
theorem coloring_same {s s1 s1' s2 : St} {reqs : List (Nat × Nat)} (hs : Start s)
    (hc : conflicts reqs s = .ok s1) (hg : SameGraph s1 s1') (hk : coloring s1' = .ok s2) :
    (∀ a b, (a, b) ∈ reqs → ∀ r, (s2.cg a).pos.inReg = some r → (s2.cg b).pos.inReg = some r →
      (s.cg a).pos.inReg = some r ∧ (s.cg b).pos.inReg = some r) ∧
    (∀ v, (s.cg v).pos.allocated = true → (s2.cg v).pos = (s.cg v).pos) ∧
    (∀ v ∈ s1'.seo, (s2.cg v).pos.allocated = true) ∧
    (∀ v, (s.cg v).pos.allocated = false → (s2.cg v).pos.allocated = true →
      ∃ r, (s2.cg v).pos.inReg = some r ∧ r < 10) := by
  have sp0 := conflicts_same hc
  have sp : SamePos s { s1' with seo := s.seo } := ⟨hg.regs.trans sp0.regs, rfl, hg.allVar.trans sp0.allVar, fun v => (hg.pos v).trans (sp0.pos v),
    fun v => (hg.fin v).trans (sp0.fin v), fun v => (hg.nonvr v).trans (sp0.nonvr v)⟩
  have g := conflicts_gr hs.gr hc
  have g' : Gr s1' := g.ofSame hg
  have rk : RegsOk s1' := RegsOk.same (s' := { s1' with seo := s.seo }) sp hs.regs
  obtain ⟨d, ap⟩ := colorAll_ok hk
  have ha := ap g'.sym (apart_init rk g')
  have kept : ∀ v, (s.cg v).pos.allocated = true → (s2.cg v).pos = (s.cg v).pos := by
    intro v hv
    have : (s1'.cg v).pos = (s.cg v).pos := sp.pos v
    rw [d.kept v (by rw [this]; exact hv), this]
  refine ⟨?_, kept, ?_, ?_⟩
  · intro a b hm r h1 h2
    -- values with a fixed place that no conflict mentions may be unallocated: only allocated ones are kept
    have hadj : ∀ x, (s2.cg x).adj = (s1.cg x).adj := fun x => (d.adj x).trans (hg.adj x)
    obtain ⟨hne, h3 | h3 | ⟨q1, q2, h3, h4, h5⟩⟩ := conflicts_edge hc hm
    · have := rep_none h3
      rw [kept a this.1] at h1
      exact absurd (inReg_some.1 h1).2.1 this.2
    · have := rep_none h3
      rw [kept b this.1] at h2
      exact absurd (inReg_some.1 h2).2.1 this.2
    · have rep_in : ∀ x q, rep s x = .ok (some q) → (s2.cg x).pos.inReg = some r → (s2.cg q).pos.inReg = some r ∧
          ((q = x ∧ (s.cg x).fin = false) ∨ ((s.cg x).pos.inReg = some r ∧ q = s.regs r ∧ r < colors)) := by
        intro x q hx hs'
        rcases rep_some hx with ⟨rfl, _, hf⟩ | ⟨h3, h4, h5, h6, h7⟩
        · exact ⟨hs', Or.inl ⟨rfl, hf⟩⟩
        · rw [kept x h3] at hs'
          have e := (inReg_some.1 hs').2.2
          have k := hs.regs _ h6
          rw [e] at k h7 h6
          refine ⟨?_, Or.inr ⟨hs', h7, h6⟩⟩
          rw [h7, kept _ (inReg_some.1 k.1).1]
          exact k.1
      obtain ⟨k1, k2⟩ := rep_in a q1 h3 h1
      obtain ⟨k3, k4⟩ := rep_in b q2 h4 h2
      rw [← hadj] at h5
      by_cases hq : q1 = q2
      · rcases k2 with ⟨e, hf⟩ | ⟨e1, e2, e3⟩
        · rcases k4 with ⟨e', _⟩ | ⟨_, e2, e3⟩
          · exact absurd (e.symm.trans (hq.trans e')) hne
          · have := (hs.regs r e3).2
            rw [← e2, ← hq, e, hf] at this
            cases this
        · rcases k4 with ⟨e', hf⟩ | ⟨e4, _, _⟩
          · have := (hs.regs r e3).2
            rw [← e2, hq, e', hf] at this
            cases this
          · exact ⟨e1, e4⟩
      · exact absurd k3 (ha q1 q2 h5 hq r k1)
  · intro v hv; exact d.alloc v hv
  · intro v h1 h2
    have hp : (s1'.cg v).pos = (s.cg v).pos := sp.pos v
    refine ⟨(s2.cg v).pos.reg, inReg_some.2 ⟨h2, ?_, rfl⟩, d.reg v (by rw [hp]; exact h1) h2⟩
    rw [d.spilled, hp]
    exact hs.free v h1

/-- **C35**: after colouring along any order, two values of which a conflict was recorded are never in the same
register, except if both were given that register beforehand; values that had a place keep it; the values of the order
have a place, and new ones are registers 0..9. -/
theorem C35_coloring {s s1 s2 : St} {reqs : List (Nat × Nat)} {order : List Nat} (hs : Start s)
    (hc : conflicts reqs s = .ok s1) (hk : coloring { s1 with seo := order } = .ok s2) :
    (∀ a b, (a, b) ∈ reqs → ∀ r, (s2.cg a).pos.inReg = some r → (s2.cg b).pos.inReg = some r →
      (s.cg a).pos.inReg = some r ∧ (s.cg b).pos.inReg = some r) ∧
    (∀ v, (s.cg v).pos.allocated = true → (s2.cg v).pos = (s.cg v).pos) ∧
    (∀ v ∈ order, (s2.cg v).pos.allocated = true) ∧
    (∀ v, (s.cg v).pos.allocated = false → (s2.cg v).pos.allocated = true →
      ∃ r, (s2.cg v).pos.inReg = some r ∧ r < 10) :=
  coloring_same hs hc (.seo s1 order) hk

/-- Coalescing after colouring a state with the graph that the conflict analysis made. -/
theorem coalescing_same {s s1 s1' s2 s3 : St} {reqs copies : List (Nat × Nat)} (hs : Start s)
    (hall : ∀ v, (s.cg v).fin = true → (s.cg v).pos.allocated = true)
    (hc : conflicts reqs s = .ok s1) (hg : SameGraph s1 s1') (hk : coloring s1' = .ok s2)
    (hm : coalescing copies s2 = .ok s3)
    (hfix : ∀ c ∈ copies, ¬ ((s.cg c.1).fin = true ∧ (s.cg c.2).fin = true))
    (hcopy : ∀ c ∈ copies, c.2 ∈ (s2.cg c.1).adj → (s.cg c.1).fin = true ∨ (s.cg c.2).fin = true) :
    (∀ a b, (a, b) ∈ reqs → ∀ r, (s3.cg a).pos.inReg = some r → (s3.cg b).pos.inReg = some r →
      (s.cg a).pos.inReg = some r ∧ (s.cg b).pos.inReg = some r) ∧
    (∀ v, (s.cg v).fin = true → (s3.cg v).pos = (s.cg v).pos) ∧
    (∀ v, (s.cg v).pos.allocated = false → (s3.cg v).pos.allocated = true →
      ∃ r, (s3.cg v).pos.inReg = some r ∧ r < 10) := by
  have sp0 := conflicts_same hc
  have sp : SamePos s { s1' with seo := s.seo } := ⟨hg.regs.trans sp0.regs, rfl, hg.allVar.trans sp0.allVar, fun v => (hg.pos v).trans (sp0.pos v),
    fun v => (hg.fin v).trans (sp0.fin v), fun v => (hg.nonvr v).trans (sp0.nonvr v)⟩
  have g := conflicts_gr hs.gr hc
  have g' : Gr s1' := g.ofSame hg
  have rk : RegsOk s1' := RegsOk.same (s' := { s1' with seo := s.seo }) sp hs.regs
  have c35 := coloring_same hs hc hg hk
  obtain ⟨d, ap⟩ := colorAll_ok hk
  have ha := ap g'.sym (apart_init rk g')
  have fin2 : ∀ v, (s2.cg v).fin = (s.cg v).fin := fun v => (d.fin v).trans (sp.fin v)
  have sym2 : ∀ u v, v ∈ (s2.cg u).adj → u ∈ (s2.cg v).adj := by
    intro u v; rw [d.adj, d.adj]; exact g'.sym u v
  have m := coalescing_ok hm sym2 (by
    intro c hc
    rw [fin2, fin2]
    exact ⟨hfix c hc, hcopy c hc⟩)
  have kept : ∀ v, (s.cg v).fin = true → (s3.cg v).pos = (s.cg v).pos := by
    intro v hv
    rw [m.kept v (by rw [fin2]; exact hv), c35.2.1 v (hall v hv)]
  refine ⟨?_, kept, ?_⟩
  · intro a b hab r h1 h2
    exact apart_requested hs.regs hc (fun x => ((m.adj x).trans (d.adj x)).trans (hg.adj x)) kept (m.apart sym2 ha) hab h1 h2
  · intro v h1 h2
    rw [m.alloc] at h2
    obtain ⟨r, h3, h4⟩ := c35.2.2.2 v h1 h2
    refine ⟨(s3.cg v).pos.reg, inReg_some.2 ⟨by rw [m.alloc]; exact h2, ?_, rfl⟩, ?_⟩
    · rw [m.spilled]; exact (inReg_some.1 h3).2.1
    · rcases m.reg v with e | e
      · rw [e, (inReg_some.1 h3).2.2]; exact h4
      · exact e

/-- **C37** (partial): coalescing after colouring keeps conflicting values apart, if no copy is between two values that
were given their registers beforehand, nor between two conflicting values neither of which was (see
`C37_violated`). -/
theorem C37_coalescing_partial {s s1 s2 s3 : St} {reqs copies : List (Nat × Nat)} {order : List Nat} (hs : Start s)
    (hall : ∀ v, (s.cg v).fin = true → (s.cg v).pos.allocated = true)
    (hc : conflicts reqs s = .ok s1) (hk : coloring { s1 with seo := order } = .ok s2)
    (hm : coalescing copies s2 = .ok s3)
    (hfix : ∀ c ∈ copies, ¬ ((s.cg c.1).fin = true ∧ (s.cg c.2).fin = true))
    (hcopy : ∀ c ∈ copies, c.2 ∈ (s2.cg c.1).adj → (s.cg c.1).fin = true ∨ (s.cg c.2).fin = true) :
    (∀ a b, (a, b) ∈ reqs → ∀ r, (s3.cg a).pos.inReg = some r → (s3.cg b).pos.inReg = some r →
      (s.cg a).pos.inReg = some r ∧ (s.cg b).pos.inReg = some r) ∧
    (∀ v, (s.cg v).fin = true → (s3.cg v).pos = (s.cg v).pos) ∧
    (∀ v, (s.cg v).pos.allocated = false → (s3.cg v).pos.allocated = true →
      ∃ r, (s3.cg v).pos.inReg = some r ∧ r < 10) :=
  coalescing_same hs hall hc (.seo s1 order) hk hm hfix hcopy

/-! ## Pre-spilling -/

/-- The values chosen for spilling get stack slots. -/
def markSpilled (s : St) (l : List Nat) (slot : Nat → Int) : St :=
  { s with cg := fun v => if v ∈ l then { s.cg v with pos := { allocated := true, spilled := slot v, size := 8 } }
                          else s.cg v }

theorem colorOne_isOk {s : St} {v : Nat} (X : List Nat) (hX : X.length < colors)
    (h1 : ∀ x ∈ (s.cg v).adj, ∀ r, (s.cg x).pos.inReg = some r → r < colors ∧ x ∈ X) :
    ∃ s', colorOne s v = .ok s' := by
  unfold colorOne
  split
  · exact ⟨_, rfl⟩
  · have hu : usedRegs s (s.cg v).adj = .ok ((s.cg v).adj.filterMap (fun x => (s.cg x).pos.inReg)) := by
      unfold usedRegs
      dsimp only
      rw [if_neg]
      simp only [List.any_eq_true, decide_eq_true_eq, not_exists, not_and, Nat.not_le]
      intro r hr
      obtain ⟨x, hx, e⟩ := List.mem_filterMap.1 hr
      exact (h1 x hx r e).1
    rw [hu]
    simp only [Out.ok_bind]
    cases hf : freeReg ((s.cg v).adj.filterMap (fun x => (s.cg x).pos.inReg)) with
    | some i => exact ⟨_, rfl⟩
    | none =>
      exfalso
      have hall := freeReg_none hf
      have hsub : List.range colors ⊆ X.filterMap (fun x => (s.cg x).pos.inReg) := by
        intro i hi
        obtain ⟨x, hx, e⟩ := List.mem_filterMap.1 (hall i (List.mem_range.1 hi))
        exact List.mem_filterMap.2 ⟨x, (h1 x hx i e).2, e⟩
      have h3 := List.Nodup.length_le_of_subset List.nodup_range hsub
      have h4 := List.length_filterMap_le (fun x => (s.cg x).pos.inReg) X
      simp only [List.length_range] at h3
      omega

/-- Colouring succeeds along an order in which every value has fewer than ten neighbours that have, or get before it,
a register. -/
theorem colorAll_isOk {s0 : St} (order : List Nat) (hr : ∀ v r, (s0.cg v).pos.inReg = some r →
      (∃ u, v ∈ (s0.cg u).adj) → r < colors)
    (hc : ∀ pre v post, order = pre ++ v :: post → (s0.cg v).pos.allocated = false →
      ∃ X : List Nat, X.length < colors ∧ ∀ x ∈ (s0.cg v).adj,
        (s0.cg x).pos.inReg ≠ none ∨ (x ∈ pre ∧ (s0.cg x).pos.allocated = false) → x ∈ X) :
    ∀ (l pre : List Nat) (s : St), order = pre ++ l → ColoredAll s0 s pre → ∃ s', colorAll l s = .ok s'
  | [], _, s, _, _ => ⟨s, rfl⟩
  | v :: l, pre, s, e, ca => by
    have h1 : ∃ s', colorOne s v = .ok s' := by
      cases hv : (s.cg v).pos.allocated with
      | true => exact ⟨s, by simp [colorOne, hv]⟩
      | false =>
        have hv0 : (s0.cg v).pos.allocated = false := by
          cases h : (s0.cg v).pos.allocated with
          | false => rfl
          | true => rw [ca.kept v h, h] at hv; cases hv
        obtain ⟨X, hX, hin⟩ := hc pre v l e hv0
        refine colorOne_isOk X hX ?_
        intro x hx r hxr
        rw [ca.adj] at hx
        cases h : (s0.cg x).pos.allocated with
        | true =>
          rw [ca.kept x h] at hxr
          exact ⟨hr x r hxr ⟨v, hx⟩, hin x hx (Or.inl (by rw [hxr]; simp))⟩
        | false =>
          have hx' := inReg_some.1 hxr
          refine ⟨hx'.2.2 ▸ ca.reg x h hx'.1, hin x hx (Or.inr ⟨?_, h⟩)⟩
          apply Classical.byContradiction
          intro hn
          have := ca.other x hn
          rw [this, h] at hx'
          cases hx'.1
    obtain ⟨s1, h1⟩ := h1
    have c := colorOne_ok h1
    have ca1 : ColoredAll s0 s1 (pre ++ [v]) := by
      have k1 : ∀ x, (s.cg x).pos.allocated = true → (s1.cg x).pos = (s.cg x).pos := by
        intro x hx
        by_cases e : x = v
        · subst e; exact c.kept hx
        · exact c.other x e
      refine ⟨c.regs.trans ca.regs, fun x => (c.adj x).trans (ca.adj x), fun x => (c.fin x).trans (ca.fin x), ?_, ?_,
        ?_, ?_, ?_⟩
      · intro x hx
        have := ca.kept x hx
        rw [k1 x (by rw [this]; exact hx), this]
      · intro x hx
        simp only [List.mem_append, List.mem_singleton, not_or] at hx
        rw [c.other x hx.2, ca.other x hx.1]
      · intro x hx
        rcases List.mem_append.1 hx with hx | hx
        · have := ca.alloc x hx
          rw [k1 x this]; exact this
        · simp only [List.mem_singleton] at hx
          rw [hx]; exact c.alloc
      · intro x
        by_cases e : x = v
        · subst e; rw [c.spilled, ca.spilled]
        · rw [c.other x e, ca.spilled]
      · intro x h2 h3
        by_cases e : x = v
        · subst e
          cases h : (s.cg x).pos.allocated with
          | false => exact (c.reg h).1
          | true =>
            rw [k1 x h]
            exact ca.reg x h2 h
        · rw [c.other x e] at h3 ⊢
          exact ca.reg x h2 h3
    obtain ⟨s', h2⟩ := colorAll_isOk order hr hc l (pre ++ [v]) s1 (by simp [e]) ca1
    exact ⟨s', by simp only [colorAll, h1, Out.ok_bind]; exact h2⟩

/-- **C36** (partial): for every conflict graph and order, choosing the values to spill ends without failing, chooses
no machine register; and if the machine registers conflicting with a value come before it in the order, colouring
along the order finds a register for every value that is not spilled.  `C36_violated` shows that the order computed by
the code does not have this property. -/
theorem C36_prespill_partial {s s1 : St} {reqs : List (Nat × Nat)} {order : List Nat} (hs : Start s)
    (hnv : ∀ v ∈ order, (s.cg v).nonvr = true → ∃ i, i < colors ∧ v = s.regs i)
    (hc : conflicts reqs s = .ok s1) (slot : Nat → Int) (hslot : ∀ v, slot v ≠ 0) :
    ∃ s2 l, preSpillAlong { s1 with seo := order } = .ok (s2, l) ∧
      (∀ v ∈ l, v ∈ order ∧ ∀ i, i < 10 → (s.cg (s.regs i)).nonvr = true → v ≠ s.regs i) ∧
      ((∀ pre v post, order = pre ++ v :: post → (s.cg v).pos.allocated = false →
          ∀ i, i < 10 → s.regs i ∈ (s1.cg v).adj → s.regs i ∈ pre) →
        (coloring (markSpilled s2 l slot)).isOk = true) := by
  have sp := conflicts_same hc
  have g := conflicts_gr hs.gr hc
  obtain ⟨s2, l, h1, h2, h3, h4, h5⟩ := preSpillAlong_ok (s := { s1 with seo := order }) (by
    intro v hv h
    have h' : (s1.cg v).nonvr = true := h
    rw [sp.nonvr] at h'
    show ∃ i, i < colors ∧ v = s1.regs i
    rw [sp.regs]
    exact hnv v hv h')
  have pos2 : ∀ v, (s2.cg v).pos = (s.cg v).pos := fun v => (h2.pos v).trans (sp.pos v)
  have adj2 : ∀ v, (s2.cg v).adj = (s1.cg v).adj := fun v => h2.adj v
  refine ⟨s2, l, h1, ?_, ?_⟩
  · intro v hv
    obtain ⟨h6, h7⟩ := h4 v hv
    refine ⟨h7, ?_⟩
    rintro i hi hnv' rfl
    have h6' : (s1.cg (s.regs i)).nonvr = false := h6
    rw [sp.nonvr, hnv'] at h6'
    cases h6'
  · intro hfirst
    have mpos : ∀ v, v ∉ l → ((markSpilled s2 l slot).cg v).pos = (s.cg v).pos := by
      intro v hv; simp [markSpilled, hv, pos2]
    have madj : ∀ v, ((markSpilled s2 l slot).cg v).adj = (s1.cg v).adj := by
      intro v; rw [← adj2]; simp only [markSpilled]; split <;> rfl
    have mspill : ∀ v, v ∈ l → ((markSpilled s2 l slot).cg v).pos.inReg = none := by
      intro v hv
      simp [markSpilled, hv, VrPos.inReg, hslot v]
    have malloc : ∀ v, v ∈ l → ((markSpilled s2 l slot).cg v).pos.allocated = true := by
      intro v hv; simp [markSpilled, hv]
    have regof : ∀ x r, (∃ u, x ∈ (s1.cg u).adj) → ((markSpilled s2 l slot).cg x).pos.inReg = some r →
        r < colors ∧ x = s.regs r := by
      intro x r ⟨u, hu⟩ hx
      have hxl : x ∉ l := fun h => by rw [mspill x h] at hx; cases hx
      rw [mpos x hxl] at hx
      rcases g.vert u x hu with hv | ⟨i, hi, e⟩
      · rw [sp.pos] at hv
        rw [(inReg_some.1 hx).1] at hv; cases hv
      · rw [sp.regs] at e
        have := (hs.regs i hi).1
        rw [← e, hx] at this
        cases this
        exact ⟨hi, e⟩
    obtain ⟨s', hs'⟩ := colorAll_isOk (s0 := markSpilled s2 l slot) order
      (by
        intro v r hv ⟨u, hu⟩
        rw [madj] at hu
        exact (regof v r ⟨u, hu⟩ hv).1)
      (by
        intro pre v post e hv
        have hvl : v ∉ l := fun h => by rw [malloc v h] at hv; cases hv
        have hv' : (s.cg v).pos.allocated = false := by rw [← mpos v hvl]; exact hv
        have hcl := h5 pre v post e
        refine ⟨((clique { s1 with seo := order } pre v).filter (· ∉ l)).filter (· ≠ v), ?_, ?_⟩
        · have : (((clique { s1 with seo := order } pre v).filter (· ∉ l)).filter (· ≠ v)).length <
              ((clique { s1 with seo := order } pre v).filter (· ∉ l)).length := by
            rw [List.length_filter_lt_length_iff_exists]
            refine ⟨v, ?_, by simp⟩
            rw [List.mem_filter]
            exact ⟨mem_clique.2 (Or.inl rfl), by simpa using hvl⟩
          omega
        · intro x hx hcase
          rw [madj] at hx
          have hxv : x ≠ v := by
            rintro rfl
            obtain ⟨i, hi, e'⟩ := g.loop x hx
            rw [sp.regs] at e'
            have := (inReg_some.1 (hs.regs i hi).1).1
            rw [← e', hv'] at this
            cases this
          have hxl : x ∉ l := by
            intro h
            rcases hcase with h' | ⟨_, h'⟩
            · exact h' (mspill x h)
            · rw [malloc x h] at h'; cases h'
          have hxp : x ∈ pre := by
            rcases hcase with h' | ⟨h', _⟩
            · obtain ⟨r, hr⟩ := Option.ne_none_iff_exists'.1 h'
              obtain ⟨k1, k2⟩ := regof x r ⟨v, hx⟩ hr
              rw [k2] at hx ⊢
              exact hfirst pre v post e hv' r k1 hx
            · exact h'
          rw [List.mem_filter, List.mem_filter]
          exact ⟨⟨mem_clique.2 (Or.inr ⟨hx, hxp⟩), by simpa using hxl⟩, by simpa using hxv⟩)
      order [] (markSpilled s2 l slot) (by simp)
      ⟨rfl, fun _ => rfl, fun _ => rfl, fun _ _ => rfl, fun _ _ => rfl, by simp, fun _ => rfl,
        fun _ h h' => by rw [h] at h'; cases h'⟩
    have hseo : (markSpilled s2 l slot).seo = order := h3
    unfold coloring
    rw [hseo, hs']
    rfl

/-- The order computed by `mcs` has every vertex once (so `C36_prespill_partial` applies to it). -/
theorem C36_mcs {s : St} (hn : s.allVar.Nodup) :
    ∃ s', mcs s = .ok s' ∧ s'.seo.Perm s.allVar ∧ s'.seo.Nodup := by
  obtain ⟨s', h1, _, h3⟩ := mcs_ok hn
  exact ⟨s', h1, h3, h3.nodup_iff.2 hn⟩

/-! ## Witnesses -/

/-- Ten machine registers 0..9 and values from 10 on. -/
def exS (vars : List Nat) : St where
  cg v := if v < 10 then { pos := { allocated := true, reg := v }, fin := true, nonvr := true } else {}
  regs := id
  allVar := vars
  seo := []

theorem exS_start (vars : List Nat) : Start (exS vars) := by
  refine ⟨?_, ?_, ?_⟩
  · intro i hi
    have : i < 10 := hi
    simp [exS, this, VrPos.inReg]
  · intro v; simp only [exS]; split <;> rfl
  · intro v h; simp only [exS] at h ⊢; split <;> simp_all

/-- All pairs of a list. -/
def pairs : List Nat → List (Nat × Nat)
  | [] => []
  | a :: l => l.map (fun b => (a, b)) ++ pairs l

/-- Ten values 10..19 alive together; 20 is alive together with 10..13, and across a call. -/
def exReqs : List (Nat × Nat) :=
  regPairs (exS []) ++ pairs [10, 11, 12, 13, 14, 15, 16, 17, 18, 19] ++ [10, 11, 12, 13].map (fun u => (u, 20)) ++
    callerPairs (exS []) 20

def exVars : List Nat := [20] ++ List.range 10 ++ [10, 11, 12, 13, 14, 15, 16, 17, 18, 19]

/-- Is the outcome what `p` says? -/
def onOk {α} (x : Out α) (p : α → Bool) : Bool := match x with | .ok a => p a | _ => false

/-- **C36** is violated: for this conflict graph nothing is spilled, and colouring along the computed order fails
("No register available"), although ten registers are enough. -/
theorem C36_violated :
    onOk (conflicts exReqs (exS exVars)) (fun s1 => onOk (preSpill s1) (fun r =>
      r.2 = [] && coloring r.1 matches .err)) = true ∧
    ∃ c : Nat → Nat, (∀ i, i < 10 → c i = i) ∧ (∀ v, c v < 10 ∨ 20 < v) ∧ ∀ q ∈ exReqs, c q.1 ≠ c q.2 := by
  refine ⟨by decide +kernel, fun v => if v < 10 then v else if v < 20 then v - 10 else if v = 20 then 9 else v, ?_, ?_, ?_⟩
  · intro i hi; simp [hi]
  · intro v
    by_cases h : 20 < v
    · exact Or.inr h
    · refine Or.inl ?_
      dsimp only
      split
      · assumption
      · split
        · omega
        · split <;> omega
  · decide +kernel

/-- **C37** is violated: a copy between two conflicting values puts both in the same register. -/
theorem C37_violated :
    onOk (conflicts (regPairs (exS []) ++ [(10, 11)]) (exS [10, 11])) (fun s1 =>
      onOk (coloring { s1 with seo := [10, 11] }) (fun s2 => onOk (coalescing [(10, 11)] s2) (fun s3 =>
        ((s2.cg 10).pos.inReg == some 0) && ((s2.cg 11).pos.inReg == some 1) &&
        ((s3.cg 10).pos.inReg == some 2) && ((s3.cg 11).pos.inReg == some 2)))) = true := by decide +kernel

/-- The hypotheses of the theorems are met by the graph above without the value 20, along the registers-first
order; 10..19 get ten registers, and eleven values lead to a spill. -/
example : onOk (conflicts (regPairs (exS []) ++ pairs (List.range' 10 10)) (exS [])) (fun s1 =>
    onOk (preSpillAlong { s1 with seo := List.range 20 }) (fun r => r.2 = [] && onOk (coloring r.1) (fun s2 =>
      (List.range' 10 10).all (fun v => (s2.cg v).pos.inReg == some (v - 10))))) = true := by decide +kernel

example : onOk (conflicts (regPairs (exS []) ++ pairs (List.range' 10 11)) (exS [])) (fun s1 =>
    onOk (preSpillAlong { s1 with seo := List.range 21 }) (fun r => r.2 = [10] &&
      onOk (coloring (markSpilled r.1 r.2 (fun _ => -8))) (fun _ => true))) = true := by decide +kernel

/-- Copies to a pre-coloured value, and between values that do not conflict, are merged. -/
example : onOk (conflicts (regPairs (exS []) ++ [(10, 11)]) (exS [])) (fun s1 =>
      onOk (coloring { s1 with seo := [10, 11, 12] }) (fun s2 => onOk (coalescing [(3, 10), (11, 12)] s2) (fun s3 =>
        ((s3.cg 10).pos.inReg == some 3) && ((s3.cg 11).pos.inReg == some 0) &&
        ((s3.cg 12).pos.inReg == some 0)))) = true := by decide +kernel

end Verif.RA
