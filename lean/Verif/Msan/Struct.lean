import Verif.Msan.Lemmas
/-!
# The result of the stack sanitizer
-/
namespace Verif.Msan
open Verif Verif.IR Verif.Edit Verif.Cg Verif.Loc

variable {f : Fn}

theorem ex_nil (l : List Nat) : ex (fun _ => []) (fun _ => []) l = l := by
  unfold ex
  simp [List.flatMap_singleton']

theorem base_of (ht : Tidy f) (he : f.entry ∈ f.allBbs) :
    Base f (createBb f (mkAllocarray .t64 32) f.entry .frontAfterPhi) f.next ∧
    (∀ b ∈ f.allBbs, phisOf (createBb f (mkAllocarray .t64 32) f.entry .frontAfterPhi) b = phisOf f b ∧
      codeOf (createBb f (mkAllocarray .t64 32) f.entry .frontAfterPhi) b = (if b = f.entry then [f.next] else []) ++ codeOf f b) ∧
    Grown f (createBb f (mkAllocarray .t64 32) f.entry .frontAfterPhi) (upd (fun _ => []) f.entry [f.next]) (fun _ => []) (fun _ => []) (fun _ => []) := by
  have hg := (Grown.start ht).afterPhi he (fun _ _ => rfl) (by simp) (by simp) (by simp) (i := mkAllocarray .t64 32)
    (fun y hy => by simp [mkAllocarray, operands, raw] at hy)
  have ha := added_createBb f (mkAllocarray .t64 32) f.entry .frontAfterPhi
  generalize createBb f (mkAllocarray .t64 32) f.entry .frontAfterPhi = f0 at hg ha
  have hold : ∀ x, Live f x → f0.insn x = f.insn x := fun x hx => by
    rw [ha.insn, upd_ne]
    have := ht.lt x hx; omega
  have hnew : f0.insn f.next = mkAllocarray .t64 32 := by rw [ha.insn, upd_same]
  have hcode : ∀ b ∈ f.allBbs, phisOf f0 b = phisOf f b ∧ codeOf f0 b = (if b = f.entry then [f.next] else []) ++ codeOf f b := by
    intro b hb
    have := hg.code hb (fun x hx => by rw [hold x (.inr (.inr ⟨b, hb, hx⟩))]) (fun n hn => by
      by_cases e : b = f.entry
      · subst e
        rw [upd_same] at hn
        have : n = f.next := by simpa using hn
        rw [this, hnew]; simp [mkAllocarray]
      · rw [upd_ne _ _ e] at hn; simp at hn) (by simp) (by simp)
    refine ⟨this.1, ?_⟩
    rw [this.2, ex_nil, List.append_nil]
    by_cases e : b = f.entry
    · subst e
      rw [upd_same, if_pos rfl]
    · rw [upd_ne _ _ e, if_neg e]
  refine ⟨⟨ht, hg.tidy, hg.sp, by rw [hg.allBbs]; exact he, ?_, Nat.le_refl _, hnew, fun x hx => hg.live hx, hold⟩, hcode, hg⟩
  rw [(hcode _ he).2, if_pos rfl]
  simp

theorem mem_collect {o : Op} {rs : List Nat} {x : Nat} : x ∈ collect o rs f ↔ ∃ b ∈ rs, x ∈ f.body b ∧ (f.insn x).op = o := by
  unfold collect
  simp [List.mem_flatMap]

theorem collect_nodup (ht : Tidy f) {o : Op} : ∀ {rs : List Nat}, rs.Nodup → (∀ b ∈ rs, b ∈ f.allBbs) → (collect o rs f).Nodup
  | [], _, _ => List.nodup_nil
  | b :: rs, hn, hb => by
    rw [List.nodup_cons] at hn
    have ih := collect_nodup ht (o := o) hn.2 (fun c hc => hb c (List.mem_cons_of_mem _ hc))
    have : collect o (b :: rs) f = (f.body b).filter (fun x => (f.insn x).op = o) ++ collect o rs f := rfl
    rw [this, List.nodup_append]
    refine ⟨(ht.nodup b (hb b List.mem_cons_self)).sublist List.filter_sublist, ih, fun x hx y hy e => ?_⟩
    subst e
    obtain ⟨c, hc, h1, -⟩ := mem_collect.1 hy
    have h2 := (List.mem_filter.1 hx).1
    have e1 := ht.parent b (hb b List.mem_cons_self) x h2
    have e2 := ht.parent c (hb c (List.mem_cons_of_mem _ hc)) x h1
    rw [e1] at e2
    exact hn.1 (e2 ▸ hc)

theorem code_of_op {b x : Nat} (hx : x ∈ f.body b) (h : (f.insn x).op ≠ .phi) : x ∈ codeOf f b := by
  rw [← phisOf_append f b] at hx
  rcases List.mem_append.1 hx with hx | hx
  · exact absurd (phisOf_phi hx) h
  · exact hx

theorem collect_ok (ht : Tidy f) (he : f.entry ∈ f.allBbs) {rs : List Nat} (hb : ∀ b ∈ rs, b ∈ f.allBbs) {o : Op} (ho : o ≠ .phi) {x : Nat} (hx : x ∈ collect o rs f) :
    Live f x ∧ (f.insn x).op = o ∧ ∃ b ∈ (createBb f (mkAllocarray .t64 32) f.entry .frontAfterPhi).allBbs,
      x ∈ codeOf (createBb f (mkAllocarray .t64 32) f.entry .frontAfterPhi) b := by
  obtain ⟨b, h1, h2, h3⟩ := mem_collect.1 hx
  obtain ⟨_, h4, h5⟩ := base_of ht he
  refine ⟨.inr (.inr ⟨b, hb b h1, h2⟩), h3, b, by rw [h5.allBbs]; exact hb b h1, ?_⟩
  rw [(h4 b (hb b h1)).2]
  exact List.mem_append_right _ (code_of_op h2 (by rw [h3]; exact ho))

/-- The result of the pass. -/
theorem msan_sanitized (ht : Tidy f) (he : f.entry ∈ f.allBbs) {rs : List Nat} (hn : rs.Nodup) (hb : ∀ b ∈ rs, b ∈ f.allBbs) {k : Nat} {g : Fn}
    (h : msan k rs f = .ok g) : ∃ ini after, Sanitized f rs g f.next ini after := by
  obtain ⟨B, hcode, hg0⟩ := base_of ht he
  have hco := fun (o : Op) (ho : o ≠ .phi) (x : Nat) (hx : x ∈ collect o rs f) => collect_ok ht he hb ho hx
  have hap : ∀ x ∈ collect .loadraw rs f, ¬ (False ∨ x ∈ collect .storeraw rs f) := by
    rintro x hx (h' | h')
    · exact h'
    · have e1 := (hco _ (by simp) x hx).2.1
      have e2 := (hco _ (by simp) x h').2.1
      rw [e1] at e2
      cases e2
  unfold msan at h
  dsimp only at h
  generalize createBb f (mkAllocarray .t64 32) f.entry .frontAfterPhi = f0 at B hcode hg0 hco h
  obtain ⟨f1, M1, h1, i1⟩ := fillAll_inv B (List.range 32) (l := []) (g := f0) (M := fun _ => []) ⟨Grown.start B.tidy0, fun _ _ => rfl, by simp, rfl,
    fun _ _ h => h.elim, fun _ _ _ => rfl⟩
  rw [h1, Out.ok_bind, Out.bind_eq_ok] at h
  obtain ⟨f2, h2, h3⟩ := h
  obtain ⟨M2, i2⟩ := shadeAll_inv B (.inl ⟨rfl, rfl⟩) _ (collect_nodup ht hn hb) (fun x hx => ⟨id, hco _ (by simp) x hx⟩) i1 h2
  obtain ⟨M, i⟩ := shadeAll_inv B (.inr ⟨rfl, rfl⟩) _ (collect_nodup ht hn hb) (fun x hx => ⟨hap x hx, hco _ (by simp) x hx⟩) i2 h3
  have hold : ∀ x, Live f x → g.insn x = f.insn x := fun x hx => (i.old x (B.live x hx)).trans (B.old x hx)
  have hal : Live f0 f.next := .inr (.inr ⟨f.entry, B.entry, by rw [← phisOf_append f0 f.entry]; exact List.mem_append_right _ B.arr⟩)
  have hne : ∀ {b x}, b ∈ f.allBbs → x ∈ f.body b → x ≠ f.next := fun hb hx e => by
    have := ht.lt _ (.inr (.inr ⟨_, hb, hx⟩)); omega
  have hyes : ∀ b ∈ rs, ∀ x ∈ f.body b, Tracked f x → ∃ n, M x = [n] ∧
    ((f.insn x).op = .storeraw → g.insn n = shadowStore (f.insn x)) ∧ ((f.insn x).op = .loadraw → g.insn n = shadowLoad (f.insn x)) := by
    intro b hbb x hx htr
    refine i.yes x (hne (hb b hbb) hx) ?_ htr
    rcases htr.1 with e | e
    · exact .inr (mem_collect.2 ⟨b, hbb, hx, e⟩)
    · exact .inl (.inr (mem_collect.2 ⟨b, hbb, hx, e⟩))
  have hgn := i.grown.next
  have hfn := hg0.next
  refine ⟨M f.next, M, ⟨i.grown.entry.trans hg0.entry, i.grown.succs.trans hg0.succs, i.grown.preds.trans hg0.preds, i.grown.allBbs.trans hg0.allBbs,
    i.grown.sp.trans hg0.sp, i.grown.args.trans hg0.args, hold, ⟨Nat.le_refl _, ?_, ?_⟩, ?_, ?_, ?_, ?_, ?_, ?_⟩⟩
  · intro n hn'
    have := i.grown.newI f.next n (by simpa using hn'); omega
  · intro x n hn'
    have := i.grown.newI x n (by simpa using hn'); omega
  · rw [i.old _ hal, B.op]; rfl
  · rw [i.fills, List.nil_append]
    refine congrArg List.reverse (List.map_congr_left (fun j _ => ?_))
    unfold fill ones mkStoreraw const64
    rw [Nat.mul_comm]
    rfl
  · intro b hbb
    have hb0 : b ∈ f0.allBbs := by rw [hg0.allBbs]; exact hbb
    rw [i.grown.body b hb0, (hcode b hbb).1, (hcode b hbb).2]
    congr 1
    rw [List.nil_append, List.append_nil, ex_append]
    congr 1
    by_cases e : b = f.entry
    · rw [if_pos e, if_pos e]
      unfold ex
      simp
    · rw [if_neg e, if_neg e]; rfl
  · intro b hbb x hx htr hop
    obtain ⟨n, h4, h5, _⟩ := hyes b hbb x hx htr
    exact ⟨n, h4, h5 hop⟩
  · intro b hbb x hx htr hop
    obtain ⟨n, h4, _, h5⟩ := hyes b hbb x hx htr
    exact ⟨n, h4, h5 hop⟩
  · intro b hbb x hx hnt
    refine i.no x (hne hbb hx) ?_
    rintro ⟨(h4 | h4) | h4, h5⟩
    · exact h4
    · obtain ⟨c, hc, h6, _⟩ := mem_collect.1 h4
      have : c = b := by rw [← ht.parent c (hb c hc) x h6, ht.parent b hbb x hx]
      exact hnt ⟨this ▸ hc, h5⟩
    · obtain ⟨c, hc, h6, _⟩ := mem_collect.1 h4
      have : c = b := by rw [← ht.parent c (hb c hc) x h6, ht.parent b hbb x hx]
      exact hnt ⟨this ▸ hc, h5⟩

/-- The pass succeeds if arithmetic goes down in some order. -/
theorem msan_ok (ht : Tidy f) (he : f.entry ∈ f.allBbs) {rs : List Nat} (hn : rs.Nodup) (hb : ∀ b ∈ rs, b ∈ f.allBbs) {k : Nat}
    (h2 : ∀ x, (f.insn x).op.binAlu = true → ∃ v w, (f.insn x).vals = [v, w])
    (rk : Nat → Nat) (hr : ∀ x y, (f.insn x).op.binAlu = true → .insn y ∈ (f.insn x).vals → rk y < rk x) (hk : ∀ x, rk x < k) :
    ∃ g, msan k rs f = .ok g := by
  obtain ⟨B, hcode, hg0⟩ := base_of ht he
  have hco := fun (o : Op) (ho : o ≠ .phi) (x : Nat) (hx : x ∈ collect o rs f) => collect_ok ht he hb ho hx
  have hap : ∀ x ∈ collect .loadraw rs f, ¬ (False ∨ x ∈ collect .storeraw rs f) := by
    rintro x hx (h' | h')
    · exact h'
    · have e1 := (hco _ (by simp) x hx).2.1
      have e2 := (hco _ (by simp) x h').2.1
      rw [e1] at e2
      cases e2
  unfold msan
  dsimp only
  generalize createBb f (mkAllocarray .t64 32) f.entry .frontAfterPhi = f0 at B hcode hg0 hco
  obtain ⟨f1, M1, h1, i1⟩ := fillAll_inv B (List.range 32) (l := []) (g := f0) (M := fun _ => []) ⟨Grown.start B.tidy0, fun _ _ => rfl, by simp, rfl,
    fun _ _ h => h.elim, fun _ _ _ => rfl⟩
  have hsp : ∀ x, Live f x → ∃ t, onSp k f x = .ok t := by
    intro x _
    unfold onSp
    split
    · exact isSp_ok rk h2 hr k _ (hk _)
    · exact ⟨_, rfl⟩
  obtain ⟨f2, h3⟩ := shadeAll_ok B (.inl ⟨rfl, rfl⟩) hsp _ (collect_nodup ht hn hb) (fun x hx => ⟨id, hco _ (by simp) x hx⟩) i1
  obtain ⟨M2, i2⟩ := shadeAll_inv B (.inl ⟨rfl, rfl⟩) _ (collect_nodup ht hn hb) (fun x hx => ⟨id, hco _ (by simp) x hx⟩) i1 h3
  obtain ⟨g, h4⟩ := shadeAll_ok B (.inr ⟨rfl, rfl⟩) hsp _ (collect_nodup ht hn hb) (fun x hx => ⟨hap x hx, hco _ (by simp) x hx⟩) i2
  exact ⟨g, by rw [h1, Out.ok_bind, h3, Out.ok_bind]; exact h4⟩

end Verif.Msan
