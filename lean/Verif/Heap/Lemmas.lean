import Verif.Spec.Heap
/-!
# Lemmas about the memory of functions
-/
namespace Verif.Heap
open Verif

/-! ## Outcomes -/

/-- Not undefined, and a result satisfies `Q`. -/
def Fine {α : Type} (o : Out α) (Q : α → Prop) : Prop := o ≠ .ub ∧ ∀ r, o = .ok r → Q r

theorem Fine.ok {α : Type} {Q : α → Prop} {r : α} (h : Q r) : Fine (.ok r) Q := by
  refine ⟨by simp, ?_⟩
  intro r' e
  cases e
  exact h

theorem Fine.crit {α : Type} {Q : α → Prop} : Fine .crit Q := ⟨by simp, by simp⟩

theorem Fine.err {α : Type} {Q : α → Prop} : Fine .err Q := ⟨by simp, by simp⟩

theorem Fine.bind {α β : Type} {Q : α → Prop} {Q' : β → Prop} {o : Out α} {g : α → Out β} (h : Fine o Q) (hg : ∀ r, Q r → Fine (g r) Q') : Fine (o >>= g) Q' := by
  cases o with
  | ok r => exact hg r (h.2 r rfl)
  | err => exact ⟨(by intro e; cases e), (by intro r e; cases e)⟩
  | crit => exact ⟨(by intro e; cases e), (by intro r e; cases e)⟩
  | ub => exact absurd rfl h.1

theorem Fine.mono {α : Type} {Q Q' : α → Prop} {o : Out α} (h : Fine o Q) (hq : ∀ r, Q r → Q' r) : Fine o Q' := ⟨h.1, fun r e => hq r (h.2 r e)⟩

/-- A result that satisfies `Q`. -/
def Sure {α : Type} (o : Out α) (Q : α → Prop) : Prop := ∃ r, o = .ok r ∧ Q r

theorem Sure.fine {α : Type} {Q : α → Prop} {o : Out α} (h : Sure o Q) : Fine o Q := by
  obtain ⟨r, rfl, hq⟩ := h
  exact .ok hq

theorem Sure.bind {α β : Type} {Q : α → Prop} {Q' : β → Prop} {o : Out α} {g : α → Out β} (h : Sure o Q) (hg : ∀ r, Q r → Sure (g r) Q') : Sure (o >>= g) Q' := by
  obtain ⟨r, rfl, hq⟩ := h
  exact hg r hq

/-! ## Memory -/

/-- The memory is `l`, each once. -/
structure Good (h : Heap) (l : List Ptr) : Prop where
  live : h.live.Perm l
  once : h.live.Nodup
  below : ∀ p ∈ h.live, p < h.next

theorem Good.perm {h : Heap} {l l' : List Ptr} (g : Good h l) (e : ∀ a, l.count a = l'.count a) : Good h l' :=
  ⟨g.live.trans (List.perm_iff_count.mpr e), g.once, g.below⟩

theorem Good.malloc {h : Heap} {l : List Ptr} (g : Good h l) : Good h.malloc.2 ([h.malloc.1] ++ l) := by
  refine ⟨g.live.cons _, List.nodup_cons.mpr ⟨fun hm => ?_, g.once⟩, ?_⟩
  · exact absurd (g.below _ hm) (Nat.lt_irrefl _)
  · intro p hp
    rcases List.mem_cons.mp hp with rfl | hp
    · exact Nat.lt_succ_self _
    · exact Nat.lt_succ_of_lt (g.below _ hp)

theorem Good.free {h : Heap} {l : List Ptr} {p : Ptr} (g : Good h ([p] ++ l)) : Sure (h.free p) (fun h' => Good h' l) := by
  have hm : p ∈ h.live := g.live.mem_iff.mpr (by simp)
  unfold Heap.free
  rw [if_pos hm]
  refine ⟨_, rfl, ?_, g.once.erase _, fun q hq => g.below _ (List.mem_of_mem_erase hq)⟩
  have := g.live.erase p
  simpa using this

theorem Good.freeOpt {h : Heap} {l : List Ptr} {o : Option Ptr} (g : Good h (o.toList ++ l)) : Sure (freeOpt h o) (fun h' => Good h' l) := by
  cases o with
  | none => exact ⟨_, rfl, g⟩
  | some p => exact Good.free g

theorem Good.push {α : Type} {h : Heap} {l : List Ptr} {a : Arr α} {x : α} (g : Good h (a.own ++ l)) :
    Fine (a.push h x) (fun r => Good r.1 (r.2.own ++ l) ∧ r.2.elems = a.elems ++ [x]) := by
  unfold Arr.push
  have hf : Good (a.fit h).1 ([(a.fit h).2.1] ++ l) := by
    unfold Arr.fit
    unfold Arr.own at g
    split
    · next p e => rw [e] at g; exact g
    · next e => rw [e] at g; exact g.malloc
  dsimp only
  split
  · refine Fine.bind (Q := fun h' => Good h' ([(a.fit h).1.malloc.1] ++ l)) ?_ ?_
    · refine (Good.free (hf.malloc.perm ?_)).fine
      intro b
      simp only [List.count_append]
      omega
    · intro h' g'
      exact .ok ⟨g', rfl⟩
  · exact .ok ⟨hf, rfl⟩

theorem Good.pushUnique {α : Type} [DecidableEq α] {h : Heap} {l : List Ptr} {a : Arr α} {x : α} (g : Good h (a.own ++ l)) :
    Fine (a.pushUnique h x) (fun r => Good r.1 (r.2.own ++ l)) := by
  unfold Arr.pushUnique
  split
  · exact .ok g
  · exact g.push.mono fun _ h => h.1

theorem Good.pushAll {α : Type} {xs : List α} : ∀ {h : Heap} {l : List Ptr} {a : Arr α}, Good h (a.own ++ l) →
    Fine (Arr.pushAll h a xs) (fun r => Good r.1 (r.2.own ++ l) ∧ r.2.elems = a.elems ++ xs) := by
  induction xs with
  | nil => intro h l a g; exact .ok ⟨g, by simp⟩
  | cons x xs ih =>
    intro h l a g
    refine (g.push (x := x)).bind ?_
    intro r hr
    refine (ih hr.1).mono ?_
    intro r' h'
    exact ⟨h'.1, by rw [h'.2, hr.2]; simp⟩

theorem Good.clear {α : Type} {h : Heap} {l : List Ptr} {a : Arr α} (g : Good h (a.own ++ l)) :
    Fine (a.clear h) (fun r => Good r.1 (r.2.own ++ l) ∧ r.2.elems = []) := by
  unfold Arr.clear
  refine (Good.freeOpt g).fine.bind ?_
  intro h' g'
  exact .ok ⟨g'.malloc, rfl⟩

theorem Good.freeArr {α : Type} {h : Heap} {l : List Ptr} {a : Arr α} (g : Good h (a.own ++ l)) : Sure (a.free h) (fun h' => Good h' l) := Good.freeOpt g

theorem init_own {α : Type} : (Arr.init : Arr α).own = [] := rfl

theorem remove_own {α : Type} [DecidableEq α] {a : Arr α} {x : α} : (a.remove x).own = a.own := rfl

/-! ## Parts -/

theorem takeInsn_perm {p : Ptr} : ∀ {is : List Insn} {i : Insn} {r : List Insn}, takeInsn p is = some (i, r) → is.Perm (i :: r) ∧ i.self = p := by
  intro is
  induction is with
  | nil => intro i r e; cases e
  | cons j is ih =>
    intro i r e
    unfold takeInsn at e
    split at e
    · next h => cases e; exact ⟨.refl _, h⟩
    · cases e' : takeInsn p is with
      | none => rw [e'] at e; cases e
      | some q =>
        rw [e'] at e
        cases e
        obtain ⟨h1, h2⟩ := ih e'
        exact ⟨(h1.cons j).trans (.swap _ _ _), h2⟩

theorem takeBlock_perm {p : Ptr} : ∀ {is : List Block} {i : Block} {r : List Block}, takeBlock p is = some (i, r) → is.Perm (i :: r) ∧ i.self = p := by
  intro is
  induction is with
  | nil => intro i r e; cases e
  | cons j is ih =>
    intro i r e
    unfold takeBlock at e
    split at e
    · next h => cases e; exact ⟨.refl _, h⟩
    · cases e' : takeBlock p is with
      | none => rw [e'] at e; cases e
      | some q =>
        rw [e'] at e
        cases e
        obtain ⟨h1, h2⟩ := ih e'
        exact ⟨(h1.cons j).trans (.swap _ _ _), h2⟩

theorem takeBlock_some {p : Ptr} : ∀ {bs : List Block}, (∃ y ∈ bs, y.self = p) → ∃ r, takeBlock p bs = some r := by
  intro bs
  induction bs with
  | nil => rintro ⟨y, hy, _⟩; cases hy
  | cons b bs ih =>
    rintro ⟨y, hy, e⟩
    unfold takeBlock
    split
    · exact ⟨_, rfl⟩
    · next h =>
      rcases List.mem_cons.mp hy with rfl | hy
      · exact absurd e h
      · obtain ⟨r, hr⟩ := ih ⟨y, hy, e⟩
        exact ⟨_, by rw [hr]; rfl⟩

theorem count_insns {is is' : List Insn} (h : is.Perm is') (a : Ptr) : (is.flatMap Insn.own).count a = (is'.flatMap Insn.own).count a :=
  List.perm_iff_count.mp (h.flatMap_right _) a

theorem count_blocks {is is' : List Block} (h : is.Perm is') (a : Ptr) : (is.flatMap Block.own).count a = (is'.flatMap Block.own).count a :=
  List.perm_iff_count.mp (h.flatMap_right _) a

/-! ## States -/

theorem Sound.good {x : List Ptr} {s : St} (k : Sound x s) : Good s.h (s.f.own ++ x) := ⟨k.live, k.once, k.below⟩

/-- What does not depend on the memory. -/
structure Shaped (f : Fn) : Prop where
  home : ∀ i ∈ f.insns, ∀ b, i.home = .block b → ∃ y ∈ f.blocks, y.self = b
  reach : ∀ b ∈ f.reach.elems, ∃ y ∈ f.blocks, y.self = b
  distinct : f.reach.elems.Nodup

theorem Sound.shaped {x : List Ptr} {s : St} (k : Sound x s) : Shaped s.f := ⟨k.home, k.reach, k.distinct⟩

theorem Sound.mk' {x : List Ptr} {s : St} (g : Good s.h (s.f.own ++ x)) (k : Shaped s.f) : Sound x s :=
  ⟨g.live, g.once, g.below, k.home, k.reach, k.distinct⟩

theorem Shaped.insns {f : Fn} {is : List Insn} (k : Shaped f) (h : ∀ i ∈ is, ∃ j ∈ f.insns, i.home = j.home) : Shaped { f with insns := is } :=
  ⟨fun i hi b e => by
    obtain ⟨j, hj, e'⟩ := h i hi
    exact k.home j hj b (e'.symm.trans e), k.reach, k.distinct⟩

theorem Shaped.blocks {f : Fn} {bs : List Block} (k : Shaped f) (h : ∀ y ∈ f.blocks, ∃ z ∈ bs, z.self = y.self) : Shaped { f with blocks := bs } := by
  have e : ∀ b, (∃ y ∈ f.blocks, y.self = b) → ∃ y ∈ bs, y.self = b := by
    rintro b ⟨y, hy, rfl⟩
    exact h y hy
  exact ⟨fun i hi b e' => e b (k.home i hi b e'), fun b hb => e b (k.reach b hb), k.distinct⟩

theorem onInsn_fine {x : List Ptr} {s : St} {p : Ptr} {g : Heap → Insn → Out (Heap × Insn)} (k : Sound x s)
    (hg : ∀ h i l, Good h (i.own ++ l) → Fine (g h i) (fun r => Good r.1 (r.2.own ++ l) ∧ r.2.home = i.home)) : Fine (onInsn p g s) (Sound x) := by
  unfold onInsn
  split
  · exact .crit
  · next i is e =>
    obtain ⟨hp, hs⟩ := takeInsn_perm e
    have g0 : Good s.h (i.own ++ ([s.f.self] ++ (is.flatMap Insn.own ++ s.f.blocks.flatMap Block.own ++ (s.f.all.own ++ (s.f.reach.own ++ s.f.ends.own))) ++ x)) := by
      refine k.good.perm fun a => ?_
      have := count_insns hp a
      simp only [Fn.own, parts, List.flatMap_cons, List.count_append] at this ⊢
      omega
    refine (hg _ _ _ g0).bind ?_
    rintro ⟨h', j⟩ ⟨g1, e1⟩
    refine .ok (Sound.mk' ?_ (k.shaped.insns ?_))
    · refine g1.perm fun a => ?_
      simp only [Fn.own, parts, List.flatMap_cons, List.count_append]
      omega
    · intro q hq
      rcases List.mem_cons.mp hq with rfl | hq
      · exact ⟨i, hp.mem_iff.mpr (by simp), e1⟩
      · exact ⟨q, hp.mem_iff.mpr (List.mem_cons_of_mem _ hq), rfl⟩

theorem onBlock_fine {x : List Ptr} {s : St} {p : Ptr} {g : Heap → Block → Out (Heap × Block)} (k : Sound x s)
    (hg : ∀ h i l, Good h (i.own ++ l) → Fine (g h i) (fun r => Good r.1 (r.2.own ++ l) ∧ r.2.self = i.self)) : Fine (onBlock p g s)
    (fun s' => Sound x s' ∧ s'.f.insns = s.f.insns ∧ ∀ b, (∃ y ∈ s.f.blocks, y.self = b) → ∃ y ∈ s'.f.blocks, y.self = b) := by
  unfold onBlock
  split
  · exact .crit
  · next i is e =>
    obtain ⟨hp, hs⟩ := takeBlock_perm e
    have g0 : Good s.h (i.own ++ ([s.f.self] ++ (s.f.insns.flatMap Insn.own ++ is.flatMap Block.own ++ (s.f.all.own ++ (s.f.reach.own ++ s.f.ends.own))) ++ x)) := by
      refine k.good.perm fun a => ?_
      have := count_blocks hp a
      simp only [Fn.own, parts, List.flatMap_cons, List.count_append] at this ⊢
      omega
    refine (hg _ _ _ g0).bind ?_
    rintro ⟨h', j⟩ ⟨g1, e1⟩
    have hb : ∀ y ∈ s.f.blocks, ∃ z ∈ j :: is, z.self = y.self := by
      intro y hy
      rcases List.mem_cons.mp (hp.mem_iff.mp hy) with rfl | hy
      · exact ⟨j, by simp, e1⟩
      · exact ⟨y, List.mem_cons_of_mem _ hy, rfl⟩
    refine .ok ⟨Sound.mk' ?_ (k.shaped.blocks hb), rfl, ?_⟩
    · refine g1.perm fun a => ?_
      simp only [Fn.own, parts, List.flatMap_cons, List.count_append]
      omega
    · rintro b ⟨y, hy, rfl⟩
      exact hb y hy

theorem each_fine {α : Type} {Q : St → Prop} {g : α → St → Out St} {xs : List α} (hg : ∀ y s, Q s → Fine (g y s) Q) : ∀ {s : St}, Q s → Fine (each g xs s) Q := by
  induction xs with
  | nil => intro s h; exact .ok h
  | cons y ys ih =>
    intro s h
    exact (hg y s h).bind fun r hr => ih hr

end Verif.Heap
