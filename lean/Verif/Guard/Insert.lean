import Verif.Guard.Sim
/-!
# Small edits keep the function in good shape
-/
namespace Verif.Guard
open Verif Verif.IR Verif.Edit
set_option linter.unusedSimpArgs false

theorem dropWhile_split {p : Nat → Bool} : ∀ (A B : List Nat), (A ++ B).dropWhile p = if A.all p then B.dropWhile p else A.dropWhile p ++ B := by
  intro A
  induction A with
  | nil => simp
  | cons a A ih =>
    intro B
    rw [List.cons_append, List.dropWhile_cons, ih B]
    by_cases h : p a = true
    · simp [h, List.dropWhile_cons]
    · simp [h, List.dropWhile_cons]

/-- A new instruction between `A` and `B`. -/
theorem shape_added {f g : Fn} {i : Insn} {b : Nat} {A B : List Nat} (hs : Shape f) (h : Added f i b g) (hb : b ∈ f.allBbs)
    (hl : f.body b = A ++ B) (hl' : g.body b = A ++ f.next :: B) (hi : ∀ y, .insn y ∈ operands i → Live f y)
    (hphi : i.op ≠ .phi) (hB : ∀ y ∈ B, (f.insn y).op ≠ .phi) (hA : ∀ y ∈ A, ends (f.insn y).op = false)
    (hend : ends i.op = true → B = []) (hw : (i.op = .ja → i.bb1 ∈ f.succs b) ∧ (i.op.condJmp = true → i.bb1 ∈ f.succs b ∧ i.bb2 ∈ f.succs b)) :
    Shape g := by
  have hold : ∀ c ∈ f.allBbs, ∀ x ∈ f.body c, g.insn x = f.insn x := fun c hc x hx => by
    rw [h.insn, upd_ne _ _ (by have := lt_of_body hs.tidy hc hx; omega)]
  have hnew : g.insn f.next = i := by rw [h.insn, upd_same]
  have hmem : ∀ c ∈ f.allBbs, ∀ x ∈ g.body c, (x ∈ f.body c) ∨ (x = f.next ∧ c = b) := by
    intro c hc x hx
    by_cases e : c = b
    · subst e
      rcases (h.bodyB x).1 hx with h1 | h1
      · exact .inr ⟨h1, rfl⟩
      · exact .inl h1
    · rw [h.body c e] at hx; exact .inl hx
  refine ⟨h.tidy hs.tidy hb hi, ⟨?_, ?_, ?_⟩, ?_, by rw [h.entry, h.allBbs]; exact hs.entry, ?_, ?_, ?_⟩
  · rw [h.allBbs, h.succs, h.preds]; exact hs.graph.sym
  · rw [h.allBbs, h.succs]; exact hs.graph.succs
  · rw [h.allBbs, h.preds]; exact hs.graph.preds
  · intro c hc x hx
    rw [h.allBbs] at hc
    rw [h.succs]
    rcases hmem c hc x hx with h1 | ⟨h1, h2⟩
    · rw [hold c hc x h1]; exact hs.wired c hc x h1
    · rw [h1, h2, hnew]; exact hw
  · intro c hc x hx
    rw [h.allBbs] at hc
    by_cases e : c = b
    · subst e
      have hx' := hx
      unfold codeOf at hx
      rcases hmem c hc x ((List.dropWhile_sublist _).subset hx) with h1 | ⟨h1, _⟩
      · rw [hold c hc x h1]
        rw [hl] at h1
        rcases List.mem_append.1 h1 with h2 | h2
        · apply hs.phis c hc x
          unfold codeOf
          have hnd := hs.tidy.nodup c hc
          rw [hl] at hnd
          have hxB : x ∉ B := fun hm => (List.nodup_append.1 hnd).2.2 x h2 x hm rfl
          have hxn : x ≠ f.next := by have := lt_of_body hs.tidy hc (x := x) (by rw [hl]; exact h1); omega
          rw [hl', dropWhile_split] at hx
          rw [hl, dropWhile_split]
          have hall : A.all (fun x => (g.insn x).op == .phi) = A.all (fun x => (f.insn x).op == .phi) := by
            rw [Bool.eq_iff_iff]
            simp only [List.all_eq_true]
            constructor <;> intro h3 y hy <;> have h4 := h3 y hy <;> rw [hold c hc y (by rw [hl]; exact List.mem_append_left _ hy)] at * <;> exact h4
          rw [hall] at hx
          split at hx
          · exfalso
            have := (List.dropWhile_sublist _).subset hx
            rcases List.mem_cons.1 this with h3 | h3
            · exact hxn h3
            · exact hxB h3
          · rename_i hq
            rw [if_neg hq]
            rcases List.mem_append.1 hx with h3 | h3
            · rw [dropWhile_congr (q := fun x => (f.insn x).op == .phi) (fun y hy => by
                rw [hold c hc y (by rw [hl]; exact List.mem_append_left _ hy)])] at h3
              exact List.mem_append_left _ h3
            · exfalso
              rcases List.mem_cons.1 h3 with h3 | h3
              · exact hxn h3
              · exact hxB h3
        · exact hB x h2
      · rw [h1, hnew]; exact hphi
    · unfold codeOf at hx
      rw [h.body c e, dropWhile_congr (q := fun x => (f.insn x).op == .phi) (fun y hy => by rw [hold c hc y hy])] at hx
      rw [hold c hc x ((List.dropWhile_sublist _).subset hx)]
      exact hs.phis c hc x hx
  · intro c hc l z r hl2 hz
    rw [h.allBbs] at hc
    by_cases e : c = b
    · subst e
      rw [hl'] at hl2
      rcases List.append_eq_append_iff.1 hl2 with ⟨C, h1, h2⟩ | ⟨C, h1, h2⟩
      · cases C with
        | nil =>
          simp at h2
          obtain ⟨h2, h3⟩ := h2
          rw [← h2, hnew] at hz
          rw [← h3]; exact hend hz
        | cons y C =>
          simp at h2
          have hzB : z ∈ B := by rw [h2.2]; simp
          have hzf : z ∈ f.body c := by rw [hl]; exact List.mem_append_right _ hzB
          rw [hold c hc z hzf] at hz
          exact hs.last c hc (A ++ C) z r (by rw [hl, h2.2]; simp) hz
      · cases C with
        | nil =>
          simp at h2
          obtain ⟨h2, h3⟩ := h2
          rw [h2, hnew] at hz
          rw [h3]; exact hend hz
        | cons y C =>
          simp at h2
          have hzA : z ∈ A := by rw [h1, h2.1]; simp
          rw [hold c hc z (by rw [hl]; exact List.mem_append_left _ hzA), hA z hzA] at hz
          cases hz
    · rw [h.body c e] at hl2
      rw [hold c hc z (by rw [hl2]; simp)] at hz
      exact hs.last c hc l z r hl2 hz
  · intro c hc x hx hp o ho
    rw [h.allBbs] at hc ⊢
    rcases hmem c hc x hx with h1 | ⟨h1, h2⟩
    · rw [hold c hc x h1] at hp ho; exact hs.labels c hc x h1 hp o ho
    · rw [h1, hnew] at hp; exact absurd hp hphi

/-- A new empty block. -/
theorem shape_newBb {f : Fn} (hs : Shape f) : Shape (newBb f) := by
  have hf := fresh_not_mem f
  have hne : ∀ c ∈ f.allBbs, c ≠ freshBb f := fun c hc e => hf (e ▸ hc)
  have hbody : ∀ c ∈ f.allBbs, (newBb f).body c = f.body c := fun c hc => upd_ne _ _ (hne c hc)
  have hnew : (newBb f).body (freshBb f) = [] := upd_same ..
  have hall : ∀ c, c ∈ (newBb f).allBbs ↔ c ∈ f.allBbs ∨ c = freshBb f := by intro c; simp [newBb]
  have hS : ∀ c ∈ f.allBbs, (newBb f).succs c = f.succs c := fun c hc => upd_ne _ _ (hne c hc)
  have hP : ∀ c ∈ f.allBbs, (newBb f).preds c = f.preds c := fun c hc => upd_ne _ _ (hne c hc)
  have hS' : (newBb f).succs (freshBb f) = [] := upd_same ..
  have hP' : (newBb f).preds (freshBb f) = [] := upd_same ..
  have hin : ∀ x, InBody (newBb f) x ↔ InBody f x := by
    intro x
    constructor
    · rintro ⟨c, hc, hx⟩
      rcases (hall c).1 hc with h | h
      · exact ⟨c, h, by rw [hbody c h] at hx; exact hx⟩
      · rw [h, hnew] at hx; cases hx
    · rintro ⟨c, hc, hx⟩; exact ⟨c, (hall c).2 (.inl hc), by rw [hbody c hc]; exact hx⟩
  have hlive : ∀ x, Live (newBb f) x ↔ Live f x := by intro x; unfold Live; rw [hin]; exact Iff.rfl
  have hcase : ∀ {Q : Nat → List Nat → Prop}, (∀ c ∈ f.allBbs, Q c (f.body c)) → Q (freshBb f) [] → ∀ c ∈ (newBb f).allBbs, Q c ((newBb f).body c) := by
    intro Q h1 h2 c hc
    rcases (hall c).1 hc with h | h
    · rw [hbody c h]; exact h1 c h
    · rw [h, hnew]; exact h2
  refine ⟨⟨fun x hx => hs.tidy.lt x ((hlive x).1 hx), fun x y hx hy => (hlive y).2 (hs.tidy.closed x y ((hlive x).1 hx) hy), ?_, ?_, ?_⟩, ⟨?_, ?_, ?_⟩, ?_,
    (hall _).2 (.inl hs.entry), ?_, ?_, ?_⟩
  · exact hcase (Q := fun c l => ∀ x ∈ l, f.parent x = c) hs.tidy.parent (by simp)
  · exact hcase (Q := fun c l => l.Nodup) hs.tidy.nodup (by simp)
  · exact hcase (Q := fun c l => ∀ x ∈ l, x ≠ f.sp ∧ x ∉ f.args) hs.tidy.fixed (by simp)
  · intro a ha b hb
    rcases (hall a).1 ha with h | h <;> rcases (hall b).1 hb with h' | h'
    · rw [hS a h, hP b h']; exact hs.graph.sym a h b h'
    · rw [hS a h, h', hP']
      simp only [List.not_mem_nil, iff_false]
      exact fun hm => hf ((hs.graph.succs a h).2 _ hm)
    · rw [h, hS', hP b h']
      simp only [List.not_mem_nil, false_iff]
      exact fun hm => hf ((hs.graph.preds b h').2 _ hm)
    · rw [h, h', hS', hP']
  · intro a ha
    rcases (hall a).1 ha with h | h
    · rw [hS a h]; exact ⟨(hs.graph.succs a h).1, fun b hb => (hall b).2 (.inl ((hs.graph.succs a h).2 b hb))⟩
    · rw [h, hS']; simp
  · intro a ha
    rcases (hall a).1 ha with h | h
    · rw [hP a h]; exact ⟨(hs.graph.preds a h).1, fun b hb => (hall b).2 (.inl ((hs.graph.preds a h).2 b hb))⟩
    · rw [h, hP']; simp
  · intro c hc
    rcases (hall c).1 hc with h | h
    · rw [hbody c h, hS c h]; exact hs.wired c h
    · rw [h, hnew]; simp
  · unfold codeOf
    exact hcase (Q := fun c l => ∀ x ∈ l.dropWhile (fun x => (f.insn x).op == .phi), (f.insn x).op ≠ .phi) hs.phis (by simp)
  · exact hcase (Q := fun c l => ∀ l' z r, l = l' ++ z :: r → ends (f.insn z).op = true → r = []) hs.last (by simp)
  · exact hcase (Q := fun c l => ∀ x ∈ l, (f.insn x).op = .phi → ∀ o ∈ (f.insn x).phi, o.1 ∈ (newBb f).allBbs)
      (fun c hc x hx hp o ho => (hall _).2 (.inl (hs.labels c hc x hx hp o ho))) (by simp)

theorem mem_pushU' {l : List Nat} {x y : Nat} : y ∈ pushU l x ↔ y ∈ l ∨ y = x := by
  unfold pushU
  split
  · rename_i h
    exact ⟨.inl, fun h' => h'.elim (fun h => h) (fun e => e ▸ h)⟩
  · simp

theorem nodup_pushU' {l : List Nat} {x : Nat} (h : l.Nodup) : (pushU l x).Nodup := by
  unfold pushU
  split
  · exact h
  · rename_i hx
    rw [List.nodup_append]
    exact ⟨h, by simp, by intro a ha b hb e; rw [List.mem_singleton.1 hb] at e; exact hx (e ▸ ha)⟩

/-- A new edge. -/
theorem shape_connect {f : Fn} {a b : Nat} (hs : Shape f) (ha : a ∈ f.allBbs) (hb : b ∈ f.allBbs) : Shape (connect f a b) := by
  have hS : ∀ c d, d ∈ (connect f a b).succs c ↔ d ∈ f.succs c ∨ (c = a ∧ d = b) := by
    intro c d
    simp only [connect, upd]
    split
    · rename_i e; rw [mem_pushU', e]; simp
    · rename_i e; simp [e]
  have hP : ∀ c d, d ∈ (connect f a b).preds c ↔ d ∈ f.preds c ∨ (c = b ∧ d = a) := by
    intro c d
    simp only [connect, upd]
    split
    · rename_i e; rw [mem_pushU', e]; simp
    · rename_i e; simp [e]
  refine ⟨⟨hs.tidy.lt, hs.tidy.closed, hs.tidy.parent, hs.tidy.nodup, hs.tidy.fixed⟩, ⟨?_, ?_, ?_⟩, ?_, hs.entry, hs.phis, hs.last, hs.labels⟩
  · intro c hc d hd
    rw [hS, hP, hs.graph.sym c hc d hd]
    constructor
    · rintro (h | ⟨h1, h2⟩)
      · exact .inl h
      · exact .inr ⟨h2, h1⟩
    · rintro (h | ⟨h1, h2⟩)
      · exact .inl h
      · exact .inr ⟨h2, h1⟩
  · intro c hc
    refine ⟨?_, fun d hd => ?_⟩
    · simp only [connect, upd]
      split
      · exact nodup_pushU' (hs.graph.succs a ha).1
      · exact (hs.graph.succs c hc).1
    · rcases (hS c d).1 hd with h | ⟨_, h⟩
      · exact (hs.graph.succs c hc).2 d h
      · rw [h]; exact hb
  · intro c hc
    refine ⟨?_, fun d hd => ?_⟩
    · simp only [connect, upd]
      split
      · exact nodup_pushU' (hs.graph.preds b hb).1
      · exact (hs.graph.preds c hc).1
    · rcases (hP c d).1 hd with h | ⟨_, h⟩
      · exact (hs.graph.preds c hc).2 d h
      · rw [h]; exact ha
  · intro c hc x hx
    have := hs.wired c hc x hx
    exact ⟨fun h => (hS _ _).2 (.inl (this.1 h)), fun h => ⟨(hS _ _).2 (.inl (this.2 h).1), (hS _ _).2 (.inl (this.2 h).2)⟩⟩

end Verif.Guard
