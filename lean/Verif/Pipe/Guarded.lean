import Verif.Pipe.Options
/-!
# Guarded divisions between the lifter and code generation

A function with guards has throws, which `translate_throw` replaces by returns.  Here the function after that replacement is looked at, one guard at a time.
-/
namespace Verif.Pipe
open Verif Verif.IR
open Verif.Edit (raw operands const32 mkThrow freshBb)
open Verif.Guard (Guard)
open Verif.DivZero (jump)
open Verif.Flatten (graphOf lastOf)
open Verif.Lower (void)

/-- The function without its throws. -/
abbrev noThrows (f : Fn) : Fn := Throw.translateThrow f.allBbs f

/-- What becomes of the throw of a guard. -/
def retOne : Insn := { mkThrow with op := .ret, vals := [const32 1] }

open Classical in
theorem noThrows_insn (f : Fn) (x : Nat) : (noThrows f).insn x = if InBody f x ∧ (f.insn x).op = .throw then { f.insn x with op := .ret, vals := [const32 1] } else f.insn x := by
  unfold noThrows Throw.translateThrow InBody
  simp only [List.mem_flatMap]

theorem noThrows_cases (f : Fn) (x : Nat) : (noThrows f).insn x = f.insn x ∧ ¬ (InBody f x ∧ (f.insn x).op = .throw) ∨
    (noThrows f).insn x = { f.insn x with op := .ret, vals := [const32 1] } ∧ InBody f x ∧ (f.insn x).op = .throw := by
  rw [noThrows_insn]
  split
  · rename_i h; exact .inr ⟨rfl, h⟩
  · rename_i h; exact .inl ⟨rfl, h⟩

/-- Everything but returns is as before. -/
theorem noThrows_op {f : Fn} {x : Nat} {o : Op} (h1 : o ≠ .ret) (h2 : o ≠ .throw) : ((noThrows f).insn x).op = o ↔ (f.insn x).op = o := by
  rcases noThrows_cases f x with ⟨e, _⟩ | ⟨e, _, h⟩
  · rw [e]
  · rw [e, h]
    exact ⟨fun k => absurd k.symm h1, fun k => absurd k.symm h2⟩

theorem noThrows_ends (f : Fn) (x : Nat) : ends ((noThrows f).insn x).op = ends (f.insn x).op := by
  rcases noThrows_cases f x with ⟨e, _⟩ | ⟨e, _, h⟩
  · rw [e]
  · rw [e, h]; rfl

theorem noThrows_cond (f : Fn) (x : Nat) : ((noThrows f).insn x).op.condJmp = (f.insn x).op.condJmp := by
  rcases noThrows_cases f x with ⟨e, _⟩ | ⟨e, _, h⟩
  · rw [e]
  · rw [e, h]; rfl

theorem noThrows_bb (f : Fn) (x : Nat) : ((noThrows f).insn x).bb1 = (f.insn x).bb1 ∧ ((noThrows f).insn x).bb2 = (f.insn x).bb2 ∧ ((noThrows f).insn x).phi = (f.insn x).phi := by
  rcases noThrows_cases f x with ⟨e, _⟩ | ⟨e, _, h⟩ <;> rw [e] <;> exact ⟨rfl, rfl, rfl⟩

theorem noThrows_refs (f : Fn) (x y : Nat) (h : 0 < refs ((noThrows f).insn x) y) : 0 < refs (f.insn x) y := by
  rcases noThrows_cases f x with ⟨e, _⟩ | ⟨e, _, _⟩
  · rwa [e] at h
  · rw [e, Edit.refs_pos] at h
    simp [operands, raw, const32] at h

theorem noThrows_tidy {f : Fn} (h : Tidy f) : Tidy (noThrows f) :=
  ⟨h.lt, fun x y hx hr => h.closed x y hx (noThrows_refs f x y hr), h.parent, h.nodup, h.fixed⟩

theorem noThrows_last (f : Fn) (b : Nat) : lastOf (noThrows f) b = lastOf f b := by
  unfold lastOf
  change (match (f.body b).getLast? with | none => _ | some x => _) = _
  cases (f.body b).getLast? with
  | none => rfl
  | some x =>
    dsimp only
    rw [(noThrows_bb f x).1, (noThrows_bb f x).2.1, noThrows_cond]
    simp only [noThrows_op (f := f) (x := x) (o := .ja) (by simp) (by simp)]

theorem noThrows_graph (f : Fn) : graphOf (noThrows f) = graphOf f := by
  funext b
  unfold graphOf
  rw [noThrows_last]
  rfl

/-- One guard. -/
structure Adds (f : Fn) (b n e : Nat) (hd B : List Nat) (d y : Nat) (g : Fn) : Prop where
  shape : Shape f
  code : Code (noThrows f)
  guard : Guard f b n e hd (d :: B) (jump y n e) g
  div : (f.insn d).op = .div
  uses : .insn y ∈ operands (f.insn d)
  users : ∀ u x, (g.users u).count x = (if u = f.next ∨ u = f.next + 1 then 0 else (f.users u).count x) + if x = f.next + 1 then (operands (jump y n e)).count (.insn u) else 0
  other : ∀ c, c ∉ g.allBbs → g.body c = f.body c
  labels : ∀ x, InBody f x → (f.insn x).op = .phi → ∀ o ∈ (f.insn x).phi, o.1 ≠ b
  newN : n = freshBb f
  newE : e = freshBb f + 1

section
variable {f g : Fn} {b n e : Nat} {hd B : List Nat} {d y : Nat} (A : Adds f b n e hd B d y g)
include A

omit A in
theorem Adds.operand {u : Nat} : .insn u ∈ operands (jump y n e) ↔ u = y := by
  simp [operands, jump, Edit.mkJbin, const32, raw]

theorem Adds.inD : InBody f d := ⟨b, A.guard.inF, by rw [A.guard.list]; simp⟩

theorem Adds.liveY : Live f y := A.shape.tidy.closed d y (.inr (.inr A.inD)) (Edit.refs_pos.2 A.uses)

theorem Adds.shapeG : Shape g := A.guard.shape A.shape fun u hu => by
  rw [Adds.operand.1 (Edit.refs_pos.1 hu)]
  exact A.liveY

theorem Adds.inBody {x : Nat} : InBody g x ↔ InBody f x ∨ x = f.next ∨ x = f.next + 1 := by
  have G := A.guard
  unfold InBody
  constructor
  · rintro ⟨c, hc, hx⟩
    rcases (G.mem hc).1 hx with ⟨h1, _, h3⟩ | ⟨_, h3 | h3⟩ | ⟨_, h3⟩ | ⟨_, h3⟩
    · exact .inl ⟨c, h1, h3⟩
    · exact .inl ⟨b, G.inF, by rw [G.list]; exact List.mem_append_left _ h3⟩
    · exact .inr (.inr h3)
    · exact .inl ⟨b, G.inF, by rw [G.list]; exact List.mem_append_right _ h3⟩
    · exact .inr (.inl h3)
  · rintro (⟨c, hc, hx⟩ | h | h)
    · by_cases e1 : c = b
      · rw [e1, G.list, List.mem_append] at hx
        rcases hx with hx | hx
        · exact ⟨b, G.mem_all.2 (.inl G.inF), (G.mem (G.mem_all.2 (.inl G.inF))).2 (.inr (.inl ⟨rfl, .inl hx⟩))⟩
        · exact ⟨n, G.mem_all.2 (.inr (.inl rfl)), by rw [G.bodyN]; exact hx⟩
      · exact ⟨c, G.mem_all.2 (.inl hc), (G.mem (G.mem_all.2 (.inl hc))).2 (.inl ⟨hc, e1, hx⟩)⟩
    · exact ⟨e, G.mem_all.2 (.inr (.inr rfl)), by rw [G.bodyE, h]; simp⟩
    · exact ⟨b, G.mem_all.2 (.inl G.inF), (G.mem (G.mem_all.2 (.inl G.inF))).2 (.inr (.inl ⟨rfl, .inr h⟩))⟩

theorem Adds.insn_old {x : Nat} (hx : x < f.next) : (noThrows g).insn x = (noThrows f).insn x := by
  rw [noThrows_insn, noThrows_insn, A.guard.insn_old hx]
  have : InBody g x ↔ InBody f x := by
    rw [A.inBody]
    exact ⟨fun h => h.resolve_right (by omega), .inl⟩
  by_cases h : InBody f x ∧ (f.insn x).op = .throw
  · rw [if_pos h, if_pos ⟨this.2 h.1, h.2⟩]
  · rw [if_neg h, if_neg fun k => h ⟨this.1 k.1, k.2⟩]

theorem Adds.insn_r : (noThrows g).insn f.next = retOne := by
  rw [noThrows_insn, A.guard.insn_t, if_pos ⟨A.inBody.2 (.inr (.inl rfl)), rfl⟩]
  rfl

theorem Adds.insn_j : (noThrows g).insn (f.next + 1) = jump y n e := by
  rw [noThrows_insn, A.guard.insn_j, if_neg (by rintro ⟨_, h⟩; cases h)]

theorem Adds.ltB {c x : Nat} (hx : x ∈ f.body c) : x < f.next := by
  refine Guard.lt_of_body A.shape.tidy (c := c) (Classical.byContradiction fun hn => ?_) hx
  have h := A.code.ok.only c hn
  change f.body c = [] at h
  rw [h] at hx; cases hx

theorem Adds.split : f.body b = hd ++ d :: B := A.guard.list

theorem Adds.hdPlain {x : Nat} (hx : x ∈ hd) : ends (f.insn x).op = false := A.guard.hd_plain A.shape hx

/-- The moved instructions are not phis. -/
theorem Adds.tail {x : Nat} (hx : x ∈ d :: B) : (f.insn x).op ≠ .phi := by
  intro h
  refine A.shape.phis b A.guard.inF x ?_ h
  unfold codeOf
  rw [A.split, List.dropWhile_append]
  split
  · rw [List.dropWhile_cons_of_neg (by simp [A.div])]
    exact hx
  · simp [hx]

theorem Adds.nB {c : Nat} (h : c ∈ f.allBbs) : c ≠ n ∧ c ≠ e := ⟨fun k => A.guard.freshN (k ▸ h), fun k => A.guard.freshE (k ▸ h)⟩

theorem Adds.bodyOther {c : Nat} (h1 : c ≠ b) (h2 : c ≠ n) (h3 : c ≠ e) : g.body c = f.body c := by
  by_cases hc : c ∈ f.allBbs
  · rw [A.guard.body c hc, if_neg h1]
  · refine A.other c fun h => ?_
    rcases A.guard.mem_all.1 h with h | h | h
    · exact hc h
    · exact h2 h
    · exact h3 h

theorem Adds.bodyB : g.body b = hd ++ [f.next + 1] := by rw [A.guard.body b A.guard.inF, if_pos rfl]

theorem Adds.succsB : g.succs b = [n, e] := by rw [A.guard.succs, if_pos rfl]
theorem Adds.succsN : g.succs n = f.succs b := by rw [A.guard.succs, if_neg A.guard.hbn.symm, if_pos rfl]
theorem Adds.succsE : g.succs e = [] := by rw [A.guard.succs, if_neg A.guard.hbe.symm, if_neg A.guard.ne.symm, if_pos rfl]
theorem Adds.succsOther {c : Nat} (h1 : c ≠ b) (h2 : c ≠ n) (h3 : c ≠ e) : g.succs c = f.succs c := by rw [A.guard.succs, if_neg h1, if_neg h2, if_neg h3]

/-! ## Ways through the two functions -/

theorem Adds.edgeMem {a c : Nat} (ha : a ∈ f.allBbs) (h : Edge (noThrows f) a c) : c ∈ f.succs a := by
  have hw := A.code.wired a ha
  cases h with
  | ja x h1 h2 h3 => rw [← h3]; exact (hw x h1).1 h2
  | cond x h1 h2 h3 =>
    have := (hw x h1).2 h2
    rcases h3 with h3 | h3
    · rw [← h3]; exact this.1
    · rw [← h3]; exact this.2
  | fall h1 =>
    have h1' : f.succs a = [c] := h1
    rw [h1']; simp

/-- Where an edge of the new function comes from. -/
theorem Adds.edge {a c : Nat} (h : Edge (noThrows g) a c) : (a = b ∧ (c = n ∨ c = e)) ∨ (a = n ∧ Edge (noThrows f) b c) ∨ (a ≠ b ∧ a ≠ n ∧ a ≠ e ∧ Edge (noThrows f) a c) := by
  have hB : ∀ x ∈ g.body b, ends ((noThrows g).insn x).op = true → x = f.next + 1 := by
    intro x hx he
    rw [A.bodyB, List.mem_append] at hx
    rcases hx with hx | hx
    · exfalso
      rw [A.insn_old (A.ltB (c := b) (by rw [A.split]; simp [hx])), noThrows_ends, A.hdPlain hx] at he
      cases he
    · simpa using hx
  by_cases h1 : a = b
  · subst h1
    refine .inl ⟨rfl, ?_⟩
    cases h with
    | ja x k1 k2 k3 =>
      have := hB x k1 (by rw [k2]; rfl)
      rw [this, A.insn_j] at k2
      cases k2
    | cond x k1 k2 k3 =>
      have := hB x k1 (cond_ends k2).1
      rw [this, A.insn_j] at k3
      exact k3.imp Eq.symm Eq.symm
    | fall k1 =>
      have k1' : g.succs a = [c] := k1
      rw [A.succsB] at k1'
      simp at k1'
  · by_cases h2 : a = n
    · subst h2
      refine .inr (.inl ⟨rfl, ?_⟩)
      have hN : ∀ x ∈ g.body a, x ∈ f.body b ∧ (noThrows g).insn x = (noThrows f).insn x := by
        intro x hx
        rw [A.guard.bodyN] at hx
        have hx' : x ∈ f.body b := by rw [A.split]; exact List.mem_append_right _ hx
        exact ⟨hx', A.insn_old (A.ltB hx')⟩
      cases h with
      | ja x k1 k2 k3 => obtain ⟨m, i⟩ := hN x k1; rw [i] at k2 k3; exact .ja x m k2 k3
      | cond x k1 k2 k3 => obtain ⟨m, i⟩ := hN x k1; rw [i] at k2 k3; exact .cond x m k2 k3
      | fall k1 => exact .fall (A.succsN.symm.trans k1)
    · by_cases h3 : a = e
      · exfalso
        subst h3
        have hE : ∀ x ∈ g.body a, (noThrows g).insn x = retOne := by
          intro x hx
          rw [A.guard.bodyE, List.mem_singleton] at hx
          rw [hx, A.insn_r]
        cases h with
        | ja x k1 k2 k3 => rw [hE x k1] at k2; cases k2
        | cond x k1 k2 k3 => rw [hE x k1] at k2; cases k2
        | fall k1 =>
          have k1' : g.succs a = [c] := k1
          rw [A.succsE] at k1'
          cases k1'
      · refine .inr (.inr ⟨h1, h2, h3, ?_⟩)
        have hO : ∀ x ∈ g.body a, x ∈ f.body a ∧ (noThrows g).insn x = (noThrows f).insn x := by
          intro x hx
          rw [A.bodyOther h1 h2 h3] at hx
          exact ⟨hx, A.insn_old (A.ltB hx)⟩
        cases h with
        | ja x k1 k2 k3 => obtain ⟨m, i⟩ := hO x k1; rw [i] at k2 k3; exact .ja x m k2 k3
        | cond x k1 k2 k3 => obtain ⟨m, i⟩ := hO x k1; rw [i] at k2 k3; exact .cond x m k2 k3
        | fall k1 => exact .fall ((A.succsOther h1 h2 h3).symm.trans k1)

theorem Adds.walkMem {l : List Nat} (h : Walk (noThrows f) l) : ∀ c ∈ l, c ∈ f.allBbs := by
  induction h with
  | entry => intro c hc; rw [List.mem_singleton.1 hc]; exact A.shape.entry
  | step a c h _ he ih =>
    intro c' hc
    rcases List.mem_cons.1 hc with rfl | hc
    · have ha := ih a (by simp)
      exact (A.shape.graph.succs a ha).2 _ (A.edgeMem ha he)
    · exact ih c' hc

/-- The blocks of the old function on a way through the new one. -/
def olds (n e : Nat) (l : List Nat) : List Nat := l.filter fun c => c ≠ n ∧ c ≠ e

omit A in
theorem olds_cons {n e c : Nat} {l : List Nat} (h : c ≠ n ∧ c ≠ e) : olds n e (c :: l) = c :: olds n e l := by
  unfold olds
  rw [List.filter_cons, if_pos (by simpa using h)]

omit A in
theorem olds_new {n e c : Nat} {l : List Nat} (h : c = n ∨ c = e) : olds n e (c :: l) = olds n e l := by
  unfold olds
  rw [List.filter_cons, if_neg (by simp only [decide_eq_true_eq]; rintro ⟨h1, h2⟩; exact h.elim h1 h2)]

theorem Adds.walk {l : List Nat} (h : Walk (noThrows g) l) : Walk (noThrows f) (olds n e l) ∧ ∃ c r, l = c :: r ∧ (c = n ∨ c = e → ∃ r', r = b :: r') := by
  induction h with
  | entry =>
    have he := A.nB A.shape.entry
    have e0 : (noThrows g).entry = f.entry := A.guard.entry
    rw [e0, olds_cons he]
    exact ⟨.entry, _, _, rfl, fun h => absurd h (by rintro (h | h); exact he.1 h; exact he.2 h)⟩
  | step a c h hw he ih =>
    obtain ⟨ih1, c', r, e1, ih2⟩ := ih
    cases e1
    rcases A.edge he with ⟨k1, k2⟩ | ⟨k1, k2⟩ | ⟨k1, k2, k3, k4⟩
    · refine ⟨?_, _, _, rfl, fun _ => ⟨h, by rw [k1]⟩⟩
      rw [olds_new k2]
      exact ih1
    · obtain ⟨r', rfl⟩ := ih2 (.inl k1)
      have hc := (A.shape.graph.succs b A.guard.inF).2 c (A.edgeMem A.guard.inF k2)
      refine ⟨?_, _, _, rfl, fun k => absurd k (by have := A.nB hc; rintro (h | h); exact this.1 h; exact this.2 h)⟩
      rw [olds_new (.inl k1), olds_cons (A.nB A.guard.inF)] at ih1
      rw [olds_cons (A.nB hc), olds_new (.inl k1), olds_cons (A.nB A.guard.inF)]
      exact .step _ _ _ ih1 k2
    · rw [olds_cons ⟨k2, k3⟩] at ih1
      have ha := A.walkMem ih1 a (by simp)
      have hc := (A.shape.graph.succs a ha).2 c (A.edgeMem ha k4)
      refine ⟨?_, _, _, rfl, fun k => absurd k (by have := A.nB hc; rintro (h | h); exact this.1 h; exact this.2 h)⟩
      rw [olds_cons (A.nB hc), olds_cons ⟨k2, k3⟩]
      exact .step _ _ _ ih1 k4

/-- Behind `b` comes `n` or the error block. -/
theorem Adds.through {l : List Nat} (h : Walk (noThrows g) l) : ∀ c r, l = c :: r → b ∈ r → c = n ∨ c = e ∨ n ∈ r := by
  induction h with
  | entry => intro c r e1 hb; cases e1; cases hb
  | step a c h hw he ih =>
    intro c' r e1 hb
    cases e1
    rcases A.edge he with ⟨k1, k2⟩ | ⟨k1, k2⟩ | ⟨k1, k2, k3, k4⟩
    · exact k2.imp id .inl
    · exact .inr (.inr (by simp [k1]))
    · rcases List.mem_cons.1 hb with k | k
      · exact absurd k.symm k1
      · rcases ih a h rfl k with k | k | k
        · exact absurd k k2
        · exact absurd k k3
        · exact .inr (.inr (by simp [k]))

theorem Adds.parentOld {u : Nat} (hu : u < f.next) : g.parent u = if u ∈ d :: B then n else f.parent u := by
  rw [A.guard.parent, if_neg (by omega), if_neg (by omega)]

/-- A value of the old function is still on every way to a place that it was on every way to. -/
theorem Adds.dom {u c c' : Nat} (hu : InBody f u) (h : Dom (noThrows f) (f.parent u) c) (hc : c' = c ∨ c' = n ∧ c = b) (hB : c' = b → u ∉ d :: B) (hcm : c ∈ f.allBbs) :
    Dom (noThrows g) ((noThrows g).parent u) c' := by
  intro l hl
  obtain ⟨c0, hc0, hu0⟩ := hu
  have hp0 : f.parent u = c0 := A.shape.tidy.parent c0 hc0 u hu0
  have hlt := A.ltB hu0
  obtain ⟨w1, c1, r1, e1, w2⟩ := A.walk hl
  cases e1
  have hon : f.parent u ∈ c' :: l := by
    rcases hc with k | ⟨k1, k2⟩
    · subst k
      rw [olds_cons (A.nB hcm)] at w1
      have := h _ w1
      rw [← olds_cons (A.nB hcm)] at this
      exact List.mem_of_mem_filter this
    · obtain ⟨r', rfl⟩ := w2 (.inl k1)
      rw [olds_new (.inl k1), olds_cons (A.nB A.guard.inF)] at w1
      subst k2
      have := h _ w1
      rw [← olds_cons (A.nB A.guard.inF)] at this
      exact List.mem_cons_of_mem _ (List.mem_of_mem_filter this)
  have hpg : (noThrows g).parent u = g.parent u := rfl
  rw [hpg, A.parentOld hlt]
  split
  · rename_i hm
    have hpb : f.parent u = b := A.shape.tidy.parent b A.guard.inF u (by rw [A.split]; exact List.mem_append_right _ hm)
    rw [hpb] at hon
    rcases List.mem_cons.1 hon with k | k
    · exact absurd hm (hB k.symm)
    · rcases A.through hl c' l rfl k with k' | k' | k'
      · rw [k']; simp
      · exfalso
        rcases hc with k2 | ⟨k2, _⟩
        · exact (A.nB hcm).2 (k2 ▸ k')
        · exact A.guard.ne (k2 ▸ k')
      · exact List.mem_cons_of_mem _ k'
  · exact hon

end

end Verif.Pipe
