import Verif.Cg.LowerInv
/-!
# Lowering makes copies of the used arguments only
-/
namespace Verif.Cg
open Verif Verif.IR Verif.Edit
open Verif.Norm (VrPos Reg)

theorem empty_of_count {l m : List Nat} (h : ∀ z, m.count z = l.count z) (hl : l = []) : m = [] := by
  subst hl
  refine List.eq_nil_iff_forall_not_mem.2 fun z hz => ?_
  have := List.count_pos_iff.2 hz
  rw [h z] at this
  simp at this

theorem alloc_quiet {f : Fn} {i : Insn} {b a : Nat} (ha : a ≠ f.next) (hi : Val.insn a ∉ operands i) (h : f.users a = []) : (alloc f i b).users a = [] := by
  refine empty_of_count (l := f.users a) (fun z => ?_) h
  rw [alloc_count, if_neg ha, List.count_eq_zero.2 hi]
  split <;> simp

theorem createAt_users {f g : Fn} {i : Insn} {x : Nat} {p : Pos} (h : createAt f i x p = .ok g) : g.users = (alloc f i (f.parent x)).users ∧ g.next = f.next + 1 := by
  unfold createAt at h
  obtain ⟨l, -, h2⟩ := Out.bind_eq_ok.1 h
  cases h2
  exact ⟨rfl, rfl⟩

theorem assign_operand {a : Nat} {v : Val} (h : v ≠ .insn a) : Val.insn a ∉ operands (mkAssign v) := by
  intro hm
  exact h (by simpa [operands, mkAssign, raw] using hm : Val.insn a = v).symm

theorem replaceAll_quiet {f : Fn} {x a n : Nat} (hx : n ≠ x) (h1 : a ≠ x) (h2 : a ≠ n) (h : f.users a = []) : (replaceAll f x (.insn n)).users a = [] := by
  have hr : Val.insn n ≠ .insn x := by simpa using hx
  refine empty_of_count (l := f.users a) (fun z => ?_) h
  exact (replaceAll_spec hr).usersOut a z h1 (.inl (by simpa using Ne.symm h2))

theorem argCopies_quiet {x a : Nat} : ∀ (vs : List Val) (i : Nat) (s t : Cg), argCopies x vs i s = .ok t → (∀ v ∈ vs, v ≠ .insn a) → a < s.f.next → s.f.users a = [] →
    t.f.users a = [] ∧ s.f.next ≤ t.f.next
  | [], i, s, t, e, _, _, h => by cases e; exact ⟨h, Nat.le_refl _⟩
  | v :: vs, i, s, t, e, hv, ha, h => by
    unfold argCopies at e
    obtain ⟨g, e1, e2⟩ := Out.bind_eq_ok.1 e
    obtain ⟨h1, h2⟩ := createAt_users e1
    have hs := removeUser_same s.f v x
    have hu : (removeUser s.f v x).users a = [] := by rw [removeUser_users, if_neg (hv v List.mem_cons_self)]; exact h
    have := argCopies_quiet vs (i + 1) _ t e2 (fun w hw => hv w (List.mem_cons_of_mem _ hw)) (by show a < g.next; rw [h2, hs.next]; omega) (by
      show g.users a = []
      rw [h1]
      exact alloc_quiet (by rw [hs.next]; omega) (assign_operand (hv v List.mem_cons_self)) hu)
    refine ⟨this.1, ?_⟩
    have h3 := this.2
    dsimp only at h3
    rw [h2, hs.next] at h3
    omega

theorem lowerCall_quiet {rg : Nat → Nat} {x a : Nat} {s t : Cg} (e : lowerCall rg x s = .ok t) (hv : ∀ v ∈ (s.f.insn x).vals, v ≠ .insn a) (ha : a < s.f.next)
    (hx : x < s.f.next) (hax : a ≠ x) (hr : rg 0 ≠ a) (h : s.f.users a = []) : t.f.users a = [] := by
  unfold lowerCall at e
  obtain ⟨q, e1, e⟩ := Out.bind_eq_ok.1 e
  obtain ⟨h1, h2⟩ := argCopies_quiet _ _ _ _ e1 hv ha h
  dsimp only at e
  split at e
  · cases e; exact h1
  · obtain ⟨k, e2, e⟩ := Out.bind_eq_ok.1 e
    cases e
    obtain ⟨h3, h4⟩ := createAt_users e2
    dsimp only at h3 h4 ⊢
    refine replaceAll_quiet (by omega) hax (by omega) ?_
    rw [h3]
    exact alloc_quiet (by dsimp only; omega) (assign_operand (by simpa using hr)) h1

theorem lowerCalls_quiet {f : Fn} {rg : Nat → Nat} {pos0 : Nat → VrPos} {H : Nat → List Nat} (ht : Tidy f) (he : f.entry ∈ f.allBbs) (hrg : ∀ i, i < 10 → Live f (rg i))
    (hrb : ∀ i, ∀ b ∈ f.allBbs, rg i ∉ f.body b) {a : Nat} (ha : a < f.next) (hr : rg 0 ≠ a) (hab : ∀ b ∈ f.allBbs, a ∉ f.body b) :
    ∀ (xs : List Nat) {C : List Nat} {s t : Cg} {rn : Nat → Nat} {N M : Nat → List Nat}, Low f rg pos0 C [] s rn H N M →
      (∀ x ∈ xs, (f.insn x).op = .call ∧ ∃ b ∈ f.allBbs, x ∈ codeOf f b) → xs.Nodup → (∀ x ∈ xs, x ∉ C) → lowerCalls rg xs s = .ok t → s.f.users a = [] → t.f.users a = []
  | [], C, s, t, rn, N, M, h, _, _, _, e, hu => by cases e; exact hu
  | x :: xs, C, s, t, rn, N, M, h, hx, hn, hC, e, hu => by
    obtain ⟨hop, b, hb, hxb⟩ := hx x List.mem_cons_self
    rw [List.nodup_cons] at hn
    have hxC := hC x List.mem_cons_self
    obtain ⟨t1, rn', N', M', e1, h1⟩ := low_call ht he hrg hrb h hb hxb hop hxC
    rw [lowerCalls, e1, Out.ok_bind] at e
    have hxl : Live f x := .inr (.inr ⟨b, hb, code_body hxb⟩)
    have hnx := h.core.grown.next
    refine lowerCalls_quiet ht he hrg hrb ha hr hab xs h1 (fun y hy => hx y (List.mem_cons_of_mem _ hy)) hn.2 (fun y hy hm => by
      rcases List.mem_cons.1 hm with rfl | hm
      · exact hn.1 hy
      · exact hC y (List.mem_cons_of_mem _ hy) hm) e (lowerCall_quiet e1 (fun v hv ev => ?_) (by omega) (by have := ht.lt x hxl; omega) (fun ea => hab b hb (ea ▸ code_body hxb)) hr hu)
    have := h.core.cover a x (h.core.grown.live hxl) (fun e => e) (by
      rw [refs_pos]
      unfold operands
      exact List.mem_append_left _ (List.mem_append_left _ (ev ▸ hv)))
    rw [hu] at this
    cases this

theorem insBefore_length (l : List Nat) (a x : Nat) : (insBefore l a x).length ≤ l.length + 1 := by
  unfold insBefore
  have := congrArg List.length (List.takeWhile_append_dropWhile (p := fun x => x != a) (l := l))
  rw [List.length_append] at this ⊢
  rw [List.length_cons]
  omega

theorem lowerArg_quiet {rg : Nat → Nat} {s : Cg} {o : Nat × Nat} (ho : o.1 < s.f.next) :
    (lowerArg rg s o).f.entry = s.f.entry ∧ s.f.next ≤ (lowerArg rg s o).f.next ∧
    ((lowerArg rg s o).f.body s.f.entry).length ≤ (s.f.body s.f.entry).length + (if s.f.users o.1 = [] then 0 else 1) ∧
    ∀ a, a < s.f.next → a ≠ o.1 → rg (o.2 + 1) ≠ a → s.f.users a = [] → (lowerArg rg s o).f.users a = [] := by
  unfold lowerArg
  split
  · rename_i hu
    exact ⟨rfl, Nat.le_refl _, Nat.le_add_right _ _, fun _ _ _ _ h => h⟩
  · rename_i hu
    have hr : Val.insn s.f.next ≠ .insn o.1 := by intro e; have := Val.insn.inj e; omega
    have h := replaceAll_spec (f := createBb s.f (mkAssign (.insn (rg (o.2 + 1)))) s.f.entry .frontAfterPhi) hr
    have ha := added_createBb s.f (mkAssign (.insn (rg (o.2 + 1)))) s.f.entry .frontAfterPhi
    dsimp only
    refine ⟨h.entry.trans ha.entry, ?_, ?_, fun a h1 h2 h3 h4 => ?_⟩
    · rw [h.next, ha.next]; omega
    · rw [h.body, if_neg hu]
      unfold createBb
      dsimp only
      rw [upd_same, (alloc_same _ _ _).body]
      unfold placeBb
      dsimp only
      split
      · exact insBefore_length _ _ _
      · simp
    · refine replaceAll_quiet (by omega) h2 (by omega) ?_
      rw [ha.users]
      exact alloc_quiet (by omega) (assign_operand (by simpa using h3)) h4

/-- Only arguments with users get a copy. -/
theorem args_quiet {rg : Nat → Nat} (u : Nat → Bool) : ∀ (os : List (Nat × Nat)) (s : Cg), (os.map (·.1)).Nodup → (∀ o ∈ os, o.1 < s.f.next) → (∀ i, ∀ o ∈ os, rg i ≠ o.1) →
    (∀ o ∈ os, u o.1 = false → s.f.users o.1 = []) →
    ((os.foldl (lowerArg rg) s).f.body s.f.entry).length ≤ (s.f.body s.f.entry).length + (os.filter (fun o => u o.1)).length
  | [], s, _, _, _, _ => by simp
  | o :: os, s, hn, hl, hr, hu => by
    rw [List.map_cons, List.nodup_cons] at hn
    obtain ⟨h1, h2, h3, h4⟩ := lowerArg_quiet (rg := rg) (hl o List.mem_cons_self)
    have := args_quiet u os (lowerArg rg s o) hn.2 (fun p hp => Nat.lt_of_lt_of_le (hl p (List.mem_cons_of_mem _ hp)) h2) (fun i p hp => hr i p (List.mem_cons_of_mem _ hp)) (fun p hp hup =>
      h4 p.1 (hl p (List.mem_cons_of_mem _ hp)) (fun e => hn.1 (e ▸ List.mem_map.2 ⟨p, hp, rfl⟩)) (hr _ p (List.mem_cons_of_mem _ hp)) (hu p (List.mem_cons_of_mem _ hp) hup))
    rw [h1] at this
    rw [List.foldl_cons]
    cases huo : u o.1 with
    | false =>
      rw [if_pos (hu o List.mem_cons_self huo)] at h3
      rw [List.filter_cons, if_neg (by simp [huo])]
      omega
    | true =>
      rw [List.filter_cons, if_pos (by simpa using huo), List.length_cons]
      split at h3 <;> omega

end Verif.Cg
