import Verif.RA.Model
/-!
# Lemmas about the register allocator model
-/
namespace Verif.RA
open Verif

@[simp] theorem upd_regs (s : St) (v f) : (s.upd v f).regs = s.regs := rfl
@[simp] theorem upd_seo (s : St) (v f) : (s.upd v f).seo = s.seo := rfl
@[simp] theorem upd_allVar (s : St) (v f) : (s.upd v f).allVar = s.allVar := rfl
theorem upd_cg (s : St) (v f x) : (s.upd v f).cg x = if x = v then f (s.cg x) else s.cg x := rfl

theorem mem_ins {l : List Nat} {x y : Nat} : y ∈ ins l x ↔ y ∈ l ∨ y = x := by
  unfold ins
  split
  · constructor
    · exact Or.inl
    · rintro (h | rfl) <;> assumption
  · simp

theorem ins_nodup {l : List Nat} (h : l.Nodup) (x : Nat) : (ins l x).Nodup := by
  unfold ins
  split
  · exact h
  · rename_i hx
    rw [List.nodup_append]
    refine ⟨h, by simp, ?_⟩
    intro a ha b hb
    simp only [List.mem_cons, List.not_mem_nil, or_false] at hb
    rintro rfl
    exact hx (hb ▸ ha)

/-- Everything but the adjacency sets is the same. -/
structure SamePos (s s' : St) : Prop where
  regs : s'.regs = s.regs
  seo : s'.seo = s.seo
  allVar : s'.allVar = s.allVar
  pos : ∀ v, (s'.cg v).pos = (s.cg v).pos
  fin : ∀ v, (s'.cg v).fin = (s.cg v).fin
  nonvr : ∀ v, (s'.cg v).nonvr = (s.cg v).nonvr

theorem SamePos.rfl' (s : St) : SamePos s s := ⟨rfl, rfl, rfl, fun _ => rfl, fun _ => rfl, fun _ => rfl⟩

theorem SamePos.trans {a b c : St} (h : SamePos a b) (k : SamePos b c) : SamePos a c :=
  ⟨k.regs.trans h.regs, k.seo.trans h.seo, k.allVar.trans h.allVar, fun v => (k.pos v).trans (h.pos v),
    fun v => (k.fin v).trans (h.fin v), fun v => (k.nonvr v).trans (h.nonvr v)⟩

theorem addEdge_same (s : St) (a b : Nat) : SamePos s (addEdge s a b) := by
  refine ⟨rfl, rfl, rfl, ?_, ?_, ?_⟩ <;> intro v <;> simp only [addEdge, upd_cg] <;> split <;> split <;> rfl

theorem addEdge_adj (s : St) (a b x y : Nat) :
    y ∈ ((addEdge s a b).cg x).adj ↔ y ∈ (s.cg x).adj ∨ (x = a ∧ y = b) ∨ (x = b ∧ y = a) := by
  simp only [addEdge, upd_cg]
  by_cases h1 : x = b <;> by_cases h2 : x = a
  · subst h1; subst h2; simp [mem_ins]
  · subst h1; simp [h2, mem_ins]
  · subst h2; simp [h1, mem_ins]
  · simp [h1, h2]

theorem addEdge_nodup {s : St} (a b : Nat) (h : ∀ x, (s.cg x).adj.Nodup) (x : Nat) :
    ((addEdge s a b).cg x).adj.Nodup := by
  simp only [addEdge, upd_cg]
  split <;> split <;> first | exact h _ | exact ins_nodup (h _) _ | exact ins_nodup (ins_nodup (h _) _) _

theorem rep_same {s s' : St} (h : SamePos s s') (v : Nat) : rep s' v = rep s v := by
  simp only [rep, h.pos, h.fin, h.regs]

/-- The vertices of the graph: values without a place yet, and machine registers. -/
def Vertex (s : St) (x : Nat) : Prop :=
  ((s.cg x).pos.allocated = false) ∨ ∃ i, i < colors ∧ x = s.regs i

theorem Vertex.same {s s' : St} (h : SamePos s s') {x} (k : Vertex s x) : Vertex s' x := by
  rcases k with k | ⟨i, hi, k⟩
  · exact Or.inl (by rw [h.pos]; exact k)
  · exact Or.inr ⟨i, hi, by rw [h.regs]; exact k⟩

theorem rep_some {s : St} {v r : Nat} (h : rep s v = .ok (some r)) :
    (r = v ∧ (s.cg v).pos.allocated = false ∧ (s.cg v).fin = false) ∨
    ((s.cg v).pos.allocated = true ∧ (s.cg v).pos.spilled = 0 ∧ (s.cg v).fin = true ∧ (s.cg v).pos.reg < colors ∧
      r = s.regs (s.cg v).pos.reg) := by
  unfold rep at h
  dsimp only at h
  split at h
  · rename_i ha
    split at h
    · cases h
    · rename_i hf
      split at h
      · cases h
      · rename_i hs
        split at h
        · rename_i hr
          cases h
          refine Or.inr ⟨ha, ?_, ?_, hr, rfl⟩
          · exact Decidable.not_not.1 hs
          · simpa using hf
        · cases h
  · rename_i ha
    split at h
    · cases h
    · rename_i hf
      cases h
      exact Or.inl ⟨rfl, by simpa using ha, by simpa using hf⟩

theorem rep_none {s : St} {v : Nat} (h : rep s v = .ok none) :
    (s.cg v).pos.allocated = true ∧ (s.cg v).pos.spilled ≠ 0 := by
  unfold rep at h
  dsimp only at h
  split at h
  · rename_i ha
    split at h
    · cases h
    · split at h
      · rename_i hs; exact ⟨ha, hs⟩
      · split at h <;> cases h
  · split at h <;> cases h

theorem rep_vertex {s : St} {v r : Nat} (h : rep s v = .ok (some r)) : Vertex s r := by
  rcases rep_some h with ⟨rfl, h1, _⟩ | ⟨_, _, _, h4, h5⟩
  · exact Or.inl h1
  · exact Or.inr ⟨_, h4, h5⟩

theorem makeConflict_ok {s s' : St} {a b : Nat} (h : makeConflict s a b = .ok s') :
    a ≠ b ∧ ((rep s a = .ok none ∧ s' = s) ∨
      (∃ r, rep s a = .ok (some r) ∧ rep s b = .ok none ∧ s' = s) ∨
      (∃ r1 r2, rep s a = .ok (some r1) ∧ rep s b = .ok (some r2) ∧ s' = addEdge s r1 r2)) := by
  unfold makeConflict at h
  split at h
  · cases h
  · rename_i hab
    refine ⟨hab, ?_⟩
    split at h
    · rename_i h1; cases h; exact Or.inl ⟨h1, rfl⟩
    · rename_i r1 h1
      split at h
      · rename_i h2; cases h; exact Or.inr (Or.inl ⟨r1, h1, h2, rfl⟩)
      · rename_i r2 h2; cases h; exact Or.inr (Or.inr ⟨r1, r2, h1, h2, rfl⟩)
      all_goals cases h
    all_goals cases h

/-- The graph: symmetric, over vertices only, without duplicates, and a loop only at a machine register. -/
structure Gr (s : St) : Prop where
  sym : ∀ u v, v ∈ (s.cg u).adj → u ∈ (s.cg v).adj
  vert : ∀ u v, v ∈ (s.cg u).adj → Vertex s v
  nodup : ∀ u, (s.cg u).adj.Nodup
  loop : ∀ u, u ∈ (s.cg u).adj → ∃ i, i < colors ∧ u = s.regs i

theorem makeConflict_same {s s' : St} {a b : Nat} (h : makeConflict s a b = .ok s') : SamePos s s' := by
  rcases (makeConflict_ok h).2 with ⟨_, rfl⟩ | ⟨_, _, _, rfl⟩ | ⟨r1, r2, _, _, rfl⟩
  · exact .rfl' _
  · exact .rfl' _
  · exact addEdge_same _ _ _

theorem makeConflict_gr {s s' : St} {a b : Nat} (hg : Gr s) (h : makeConflict s a b = .ok s') : Gr s' := by
  obtain ⟨hab, hh⟩ := makeConflict_ok h
  rcases hh with ⟨_, rfl⟩ | ⟨_, _, _, rfl⟩ | ⟨r1, r2, h1, h2, rfl⟩
  · exact hg
  · exact hg
  · have hs := addEdge_same s r1 r2
    refine ⟨?_, ?_, addEdge_nodup _ _ hg.nodup, ?_⟩
    · intro u v hv
      rw [addEdge_adj] at hv ⊢
      rcases hv with hv | ⟨h3, h4⟩ | ⟨h3, h4⟩
      · exact Or.inl (hg.sym _ _ hv)
      · exact Or.inr (Or.inr ⟨h4, h3⟩)
      · exact Or.inr (Or.inl ⟨h4, h3⟩)
    · intro u v hv
      rw [addEdge_adj] at hv
      rcases hv with hv | ⟨_, h4⟩ | ⟨_, h4⟩
      · exact (hg.vert _ _ hv).same hs
      · exact h4 ▸ (rep_vertex h2).same hs
      · exact h4 ▸ (rep_vertex h1).same hs
    · intro u hu
      rw [addEdge_adj] at hu
      have key : r1 = r2 → ∃ i, i < colors ∧ r1 = s.regs i := by
        intro e
        rcases rep_some h1 with ⟨e1, _, _⟩ | ⟨_, _, _, h4, h5⟩
        · rcases rep_some h2 with ⟨e2, _, _⟩ | ⟨_, _, _, h4, h5⟩
          · exact absurd (e1.symm.trans (e.trans e2)) hab
          · exact ⟨_, h4, e.trans h5⟩
        · exact ⟨_, h4, h5⟩
      rcases hu with hu | ⟨h3, h4⟩ | ⟨h3, h4⟩
      · exact hg.loop u hu
      · exact h3 ▸ key (h3.symm.trans h4)
      · rw [h4]; exact key (h4.symm.trans h3)

theorem makeConflict_mono {s s' : St} {a b : Nat} (h : makeConflict s a b = .ok s') {u v : Nat}
    (hv : v ∈ (s.cg u).adj) : v ∈ (s'.cg u).adj := by
  rcases (makeConflict_ok h).2 with ⟨_, rfl⟩ | ⟨_, _, _, rfl⟩ | ⟨r1, r2, _, _, rfl⟩
  · exact hv
  · exact hv
  · rw [addEdge_adj]; exact Or.inl hv

theorem conflicts_same : ∀ {l : List (Nat × Nat)} {s s' : St}, conflicts l s = .ok s' → SamePos s s'
  | [], s, s', h => by cases h; exact .rfl' _
  | (a, b) :: l, s, s', h => by
    obtain ⟨s1, h1, h2⟩ := Out.bind_eq_ok.1 h
    exact (makeConflict_same h1).trans (conflicts_same h2)

theorem conflicts_gr : ∀ {l : List (Nat × Nat)} {s s' : St}, Gr s → conflicts l s = .ok s' → Gr s'
  | [], s, s', hg, h => by cases h; exact hg
  | (a, b) :: l, s, s', hg, h => by
    obtain ⟨s1, h1, h2⟩ := Out.bind_eq_ok.1 h
    exact conflicts_gr (makeConflict_gr hg h1) h2

theorem conflicts_mono : ∀ {l : List (Nat × Nat)} {s s' : St}, conflicts l s = .ok s' → ∀ {u v : Nat},
    v ∈ (s.cg u).adj → v ∈ (s'.cg u).adj
  | [], s, s', h, _, _, hv => by cases h; exact hv
  | (a, b) :: l, s, s', h, _, _, hv => by
    obtain ⟨s1, h1, h2⟩ := Out.bind_eq_ok.1 h
    exact conflicts_mono h2 (makeConflict_mono h1 hv)

/-- A requested conflict is in the graph, unless one of the values is on the stack. -/
theorem conflicts_edge : ∀ {l : List (Nat × Nat)} {s s' : St}, conflicts l s = .ok s' → ∀ {a b : Nat}, (a, b) ∈ l →
    a ≠ b ∧ (rep s a = .ok none ∨ rep s b = .ok none ∨
      ∃ r1 r2, rep s a = .ok (some r1) ∧ rep s b = .ok (some r2) ∧ r2 ∈ (s'.cg r1).adj)
  | [], s, s', h, _, _, hm => by simp at hm
  | (x, y) :: l, s, s', h, a, b, hm => by
    obtain ⟨s1, h1, h2⟩ := Out.bind_eq_ok.1 h
    rcases List.mem_cons.1 hm with e | hm
    · cases e
      obtain ⟨hne, hh⟩ := makeConflict_ok h1
      refine ⟨hne, ?_⟩
      rcases hh with ⟨h3, _⟩ | ⟨_, _, h3, _⟩ | ⟨r1, r2, h3, h4, rfl⟩
      · exact Or.inl h3
      · exact Or.inr (Or.inl h3)
      · refine Or.inr (Or.inr ⟨r1, r2, h3, h4, conflicts_mono h2 ?_⟩)
        rw [addEdge_adj]; exact Or.inr (Or.inl ⟨rfl, rfl⟩)
    · have := conflicts_edge h2 hm
      rw [rep_same (makeConflict_same h1), rep_same (makeConflict_same h1)] at this
      exact this

/-! ## Register assignments -/

/-- Neighbours are in different registers. -/
def Apart (s : St) : Prop :=
  ∀ u v, v ∈ (s.cg u).adj → u ≠ v → ∀ r, (s.cg u).pos.inReg = some r → (s.cg v).pos.inReg ≠ some r

theorem inReg_some {p : VrPos} {r : Nat} : p.inReg = some r ↔ p.allocated = true ∧ p.spilled = 0 ∧ p.reg = r := by
  unfold VrPos.inReg
  by_cases h1 : p.allocated = true <;> by_cases h2 : p.spilled = 0 <;> simp [h1, h2]

theorem inReg_unalloc {p : VrPos} (h : p.allocated = false) : p.inReg = none := by simp [VrPos.inReg, h]

/-- The pseudo instructions of the machine registers are in their registers. -/
def RegsOk (s : St) : Prop := ∀ i, i < colors → (s.cg (s.regs i)).pos.inReg = some i ∧ (s.cg (s.regs i)).fin = true

theorem RegsOk.same {s s' : St} (h : SamePos s s') (k : RegsOk s) : RegsOk s' := by
  intro i hi
  rw [h.regs, h.pos, h.fin]
  exact k i hi

theorem apart_init {s : St} (hr : RegsOk s) (hg : Gr s) : Apart s := by
  intro u v hv hne r h1 h2
  have hu := hg.vert _ _ (hg.sym _ _ hv)
  have hv' := hg.vert _ _ hv
  rcases hu with hu | ⟨i, hi, rfl⟩
  · rw [inReg_unalloc hu] at h1; cases h1
  rcases hv' with hv' | ⟨j, hj, rfl⟩
  · rw [inReg_unalloc hv'] at h2; cases h2
  have := (hr i hi).1
  have h3 := (hr j hj).1
  rw [h1] at this
  rw [h2] at h3
  cases this; cases h3
  exact hne rfl

theorem usedRegs_ok {s : St} {l u : List Nat} (h : usedRegs s l = .ok u) :
    (∀ x ∈ l, ∀ r, (s.cg x).pos.inReg = some r → r ∈ u) ∧
    (∀ r ∈ u, ∃ x ∈ l, (s.cg x).pos.inReg = some r) ∧ u.length ≤ l.length := by
  unfold usedRegs at h
  dsimp only at h
  split at h
  · cases h
  · cases h
    refine ⟨?_, ?_, List.length_filterMap_le _ _⟩
    · intro x hx r hr; exact List.mem_filterMap.2 ⟨x, hx, hr⟩
    · intro r hr; exact List.mem_filterMap.1 hr

theorem freeReg_some {u : List Nat} {i : Nat} (h : freeReg u = some i) : i < colors ∧ i ∉ u := by
  unfold freeReg at h
  have h1 := List.mem_of_find?_eq_some h
  have h2 := List.find?_some h
  exact ⟨List.mem_range.1 h1, by simpa using h2⟩

theorem freeReg_none {u : List Nat} (h : freeReg u = none) : ∀ i, i < colors → i ∈ u := by
  intro i hi
  unfold freeReg at h
  rw [List.find?_eq_none] at h
  have := h i (List.mem_range.2 hi)
  simpa using this

/-- What a step of the colouring does. -/
structure Colored (s s' : St) (v : Nat) : Prop where
  regs : s'.regs = s.regs
  adj : ∀ x, (s'.cg x).adj = (s.cg x).adj
  fin : ∀ x, (s'.cg x).fin = (s.cg x).fin
  other : ∀ x, x ≠ v → (s'.cg x).pos = (s.cg x).pos
  kept : (s.cg v).pos.allocated = true → (s'.cg v).pos = (s.cg v).pos
  alloc : (s'.cg v).pos.allocated = true
  spilled : (s'.cg v).pos.spilled = (s.cg v).pos.spilled
  reg : (s.cg v).pos.allocated = false → (s'.cg v).pos.reg < colors ∧
    ∀ x ∈ (s.cg v).adj, (s.cg x).pos.inReg ≠ some (s'.cg v).pos.reg

theorem colorOne_ok {s s' : St} {v : Nat} (h : colorOne s v = .ok s') : Colored s s' v := by
  unfold colorOne at h
  split at h
  · rename_i ha
    cases h
    exact ⟨rfl, fun _ => rfl, fun _ => rfl, fun _ _ => rfl, fun _ => rfl, ha, rfl, fun h => by rw [ha] at h; cases h⟩
  · rename_i ha
    obtain ⟨u, h1, h2⟩ := Out.bind_eq_ok.1 h
    split at h2
    · rename_i i hi
      cases h2
      have hf := freeReg_some hi
      refine ⟨rfl, ?_, ?_, ?_, ?_, ?_, ?_, ?_⟩
      · intro x; simp only [upd_cg]; split <;> rfl
      · intro x; simp only [upd_cg]; split <;> rfl
      · intro x hx; simp [upd_cg, hx]
      · intro h; rw [h] at ha; exact absurd rfl ha
      · simp [upd_cg]
      · simp [upd_cg]
      · intro _
        refine ⟨by simpa [upd_cg] using hf.1, ?_⟩
        intro x hx hr
        have := (usedRegs_ok h1).1 x hx _ hr
        simp only [upd_cg, if_pos] at this
        exact hf.2 this
    · cases h2

theorem Colored.apart {s s' : St} {v : Nat} (h : Colored s s' v) (hsym : ∀ u v, v ∈ (s.cg u).adj → u ∈ (s.cg v).adj)
    (ha : Apart s) : Apart s' := by
  cases hv : (s.cg v).pos.allocated with
  | true =>
    have hp : ∀ x, (s'.cg x).pos = (s.cg x).pos := by
      intro x
      by_cases e : x = v
      · rw [e]; exact h.kept hv
      · exact h.other x e
    intro a b hb hne r h1 h2
    rw [h.adj] at hb
    rw [hp] at h1 h2
    exact ha a b hb hne r h1 h2
  | false =>
    have hr := h.reg hv
    have key : ∀ x r, x ∈ (s.cg v).adj → x ≠ v → (s'.cg v).pos.inReg = some r → (s'.cg x).pos.inReg ≠ some r := by
      intro x r hx hne h1 h2
      rw [h.other x hne] at h2
      have := (inReg_some.1 h1).2.2
      exact hr.2 x hx (this ▸ h2)
    intro a b hb hne r h1 h2
    rw [h.adj] at hb
    by_cases e1 : a = v
    · subst e1
      exact key b r hb (fun e => hne e.symm) h1 h2
    · by_cases e2 : b = v
      · subst e2
        exact key a r (hsym _ _ hb) e1 h2 h1
      · rw [h.other a e1] at h1
        rw [h.other b e2] at h2
        exact ha a b hb hne r h1 h2

/-- What the colouring does. -/
structure ColoredAll (s s' : St) (l : List Nat) : Prop where
  regs : s'.regs = s.regs
  adj : ∀ x, (s'.cg x).adj = (s.cg x).adj
  fin : ∀ x, (s'.cg x).fin = (s.cg x).fin
  kept : ∀ x, (s.cg x).pos.allocated = true → (s'.cg x).pos = (s.cg x).pos
  other : ∀ x, x ∉ l → (s'.cg x).pos = (s.cg x).pos
  alloc : ∀ x ∈ l, (s'.cg x).pos.allocated = true
  spilled : ∀ x, (s'.cg x).pos.spilled = (s.cg x).pos.spilled
  reg : ∀ x, (s.cg x).pos.allocated = false → (s'.cg x).pos.allocated = true → (s'.cg x).pos.reg < colors

theorem colorAll_ok : ∀ {l : List Nat} {s s' : St}, colorAll l s = .ok s' →
    ColoredAll s s' l ∧ ((∀ u v, v ∈ (s.cg u).adj → u ∈ (s.cg v).adj) → Apart s → Apart s')
  | [], s, s', h => by
    cases h
    exact ⟨⟨rfl, fun _ => rfl, fun _ => rfl, fun _ _ => rfl, fun _ _ => rfl, by simp, fun _ => rfl,
      fun _ h1 h2 => by rw [h1] at h2; cases h2⟩, fun _ h => h⟩
  | v :: l, s, s', h => by
    obtain ⟨s1, h1, h2⟩ := Out.bind_eq_ok.1 h
    have c := colorOne_ok h1
    obtain ⟨d, ap⟩ := colorAll_ok h2
    have k1 : ∀ x, (s.cg x).pos.allocated = true → (s1.cg x).pos = (s.cg x).pos := by
      intro x hx
      by_cases e : x = v
      · subst e; exact c.kept hx
      · exact c.other x e
    refine ⟨⟨d.regs.trans c.regs, fun x => (d.adj x).trans (c.adj x), fun x => (d.fin x).trans (c.fin x), ?_, ?_, ?_,
      ?_, ?_⟩, ?_⟩
    · intro x hx
      rw [d.kept x (by rw [k1 x hx]; exact hx), k1 x hx]
    · intro x hx
      simp only [List.mem_cons, not_or] at hx
      rw [d.other x hx.2, c.other x hx.1]
    · intro x hx
      rcases List.mem_cons.1 hx with rfl | hx
      · rw [d.kept x c.alloc]; exact c.alloc
      · exact d.alloc x hx
    · intro x
      rw [d.spilled]
      by_cases e : x = v
      · subst e; exact c.spilled
      · rw [c.other x e]
    · intro x hx hx'
      by_cases e : x = v
      · subst e
        rw [d.kept x c.alloc]
        exact (c.reg hx).1
      · rw [← c.other x e] at hx
        exact d.reg x hx hx'
    · intro hs ha
      apply ap
      · intro u v; rw [c.adj, c.adj]; exact hs u v
      · exact c.apart hs ha

/-! ## Coalescing -/

/-- What a coalescing step does. -/
structure Merged (s s' : St) : Prop where
  regs : s'.regs = s.regs
  adj : ∀ x, (s'.cg x).adj = (s.cg x).adj
  fin : ∀ x, (s'.cg x).fin = (s.cg x).fin
  kept : ∀ x, (s.cg x).fin = true → (s'.cg x).pos = (s.cg x).pos
  alloc : ∀ x, (s'.cg x).pos.allocated = (s.cg x).pos.allocated
  spilled : ∀ x, (s'.cg x).pos.spilled = (s.cg x).pos.spilled
  apart : (∀ u v, v ∈ (s.cg u).adj → u ∈ (s.cg v).adj) → Apart s → Apart s'
  reg : ∀ x, (s'.cg x).pos.reg = (s.cg x).pos.reg ∨ (s'.cg x).pos.reg < colors

theorem Merged.rfl' (s : St) : Merged s s :=
  ⟨rfl, fun _ => rfl, fun _ => rfl, fun _ _ => rfl, fun _ => rfl, fun _ => rfl, fun _ h => h, fun _ => Or.inl rfl⟩

theorem Merged.trans {a b c : St} (h : Merged a b) (k : Merged b c) : Merged a c := by
  refine ⟨k.regs.trans h.regs, fun x => (k.adj x).trans (h.adj x), fun x => (k.fin x).trans (h.fin x), ?_,
    fun x => (k.alloc x).trans (h.alloc x), fun x => (k.spilled x).trans (h.spilled x), ?_, ?_⟩
  · intro x hx
    rw [k.kept x (by rw [h.fin]; exact hx), h.kept x hx]
  · intro hs ha
    apply k.apart
    · intro u v; rw [h.adj, h.adj]; exact hs u v
    · exact h.apart hs ha
  · intro x
    rcases k.reg x with e | e
    · rw [e]; exact h.reg x
    · exact Or.inr e

theorem setReg_cg (s : St) (v r x : Nat) :
    (setReg s v r).cg x = if x = v then { s.cg x with pos := { (s.cg x).pos with reg := r } } else s.cg x := rfl

/-- Giving a value a register that none of its neighbours uses. -/
theorem merged_one {s : St} {v r : Nat} (hf : (s.cg v).fin = false) (hr : r < colors)
    (hu : ∀ x ∈ (s.cg v).adj, (s.cg x).pos.inReg ≠ some r) : Merged s (setReg s v r) := by
  refine ⟨rfl, ?_, ?_, ?_, ?_, ?_, ?_, ?_⟩
  · intro x; simp only [setReg_cg]; split <;> rfl
  · intro x; simp only [setReg_cg]; split <;> rfl
  · intro x hx
    have : x ≠ v := by rintro rfl; rw [hf] at hx; cases hx
    simp [setReg_cg, this]
  · intro x; simp only [setReg_cg]; split <;> rfl
  · intro x; simp only [setReg_cg]; split <;> rfl
  · intro hsym ha a b hb hne q h1 h2
    have hadj : ((setReg s v r).cg a).adj = (s.cg a).adj := by simp only [setReg_cg]; split <;> rfl
    rw [hadj] at hb
    have key : ∀ x, x ∈ (s.cg v).adj → x ≠ v → ((setReg s v r).cg v).pos.inReg = some q →
        ((setReg s v r).cg x).pos.inReg ≠ some q := by
      intro x hx hne h1 h2
      simp only [setReg_cg, if_neg hne] at h2
      simp only [setReg_cg, if_pos] at h1
      have : r = q := (inReg_some.1 h1).2.2
      exact hu x hx (this ▸ h2)
    by_cases e1 : a = v
    · subst e1; exact key b hb (fun e => hne e.symm) h1 h2
    · by_cases e2 : b = v
      · subst e2; exact key a (hsym _ _ hb) e1 h2 h1
      · simp only [setReg_cg, if_neg e1] at h1
        simp only [setReg_cg, if_neg e2] at h2
        exact ha a b hb hne q h1 h2
  · intro x
    simp only [setReg_cg]
    split
    · exact Or.inr hr
    · exact Or.inl rfl

theorem coalesce_ok {s s' : St} {v1 v2 : Nat} (h : coalesce s v1 v2 = .ok s')
    (hfin : ¬ ((s.cg v1).fin = true ∧ (s.cg v2).fin = true))
    (hsym : ∀ u v, v ∈ (s.cg u).adj → u ∈ (s.cg v).adj)
    (hadj : v2 ∈ (s.cg v1).adj → (s.cg v1).fin = true ∨ (s.cg v2).fin = true) : Merged s s' := by
  unfold coalesce at h
  dsimp only at h
  split at h
  · rename_i hc
    split at h
    · cases h
    · obtain ⟨u, h1, h2⟩ := Out.bind_eq_ok.1 h
      have hu := (usedRegs_ok h1).1
      cases hf1 : (s.cg v1).fin with
      | true =>
        have hf2 : (s.cg v2).fin = false := by
          cases h3 : (s.cg v2).fin with
          | true => exact absurd ⟨hf1, h3⟩ hfin
          | false => rfl
        simp only [hf1, if_true] at h2
        split at h2
        · cases h2
        · rename_i hlt
          split at h2
          · cases h2; exact .rfl' _
          · rename_i hn
            cases h2
            refine merged_one hf2 (by omega) ?_
            intro x hx hr
            exact hn (hu x (by simp [hx]) _ hr)
      | false =>
        simp only [hf1, Bool.false_eq_true, if_false] at h2
        cases hf2 : (s.cg v2).fin with
        | true =>
          simp only [hf2, if_true] at h2
          split at h2
          · cases h2
          · rename_i hlt
            split at h2
            · cases h2; exact .rfl' _
            · rename_i hn
              cases h2
              refine merged_one hf1 (by omega) ?_
              intro x hx hr
              exact hn (hu x (by simp [hx]) _ hr)
        | false =>
          simp only [hf2, Bool.false_eq_true, if_false] at h2
          have hna : v2 ∉ (s.cg v1).adj := by
            intro hm
            rcases hadj hm with e | e
            · rw [hf1] at e; cases e
            · rw [hf2] at e; cases e
          split at h2
          · rename_i r hr
            cases h2
            have hfr := freeReg_some hr
            have m1 : Merged s (setReg s v1 r) := merged_one hf1 hfr.1 (by
              intro x hx hq; exact hfr.2 (hu x (by simp [hx]) _ hq))
            refine m1.trans (merged_one (by rw [m1.fin]; exact hf2) hfr.1 ?_)
            intro x hx hq
            rw [m1.adj] at hx
            have hxv : x ≠ v1 := by rintro rfl; exact hna (hsym _ _ hx)
            simp only [setReg_cg, if_neg hxv] at hq
            exact hfr.2 (hu x (by simp [hx]) _ hq)
          · cases h2; exact .rfl' _
  · cases h; exact .rfl' _

theorem coalescing_ok : ∀ {l : List (Nat × Nat)} {s s' : St}, coalescing l s = .ok s' →
    (∀ u v, v ∈ (s.cg u).adj → u ∈ (s.cg v).adj) →
    (∀ c ∈ l, ¬ ((s.cg c.1).fin = true ∧ (s.cg c.2).fin = true) ∧
      (c.2 ∈ (s.cg c.1).adj → (s.cg c.1).fin = true ∨ (s.cg c.2).fin = true)) → Merged s s'
  | [], s, s', h, _, _ => by cases h; exact .rfl' _
  | (a, b) :: l, s, s', h, hsym, hl => by
    obtain ⟨s1, h1, h2⟩ := Out.bind_eq_ok.1 h
    have h3 := hl (a, b) (by simp)
    have m := coalesce_ok h1 h3.1 hsym h3.2
    refine m.trans (coalescing_ok h2 ?_ ?_)
    · intro u v; rw [m.adj, m.adj]; exact hsym u v
    · intro c hc
      rw [m.fin, m.fin, m.adj]
      exact hl c (by simp [hc])

end Verif.RA
