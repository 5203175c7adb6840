import Verif.Spec.Links
/-!
# Operations on one list
-/
namespace Verif.Links
open Verif Verif.IR

/-- The last node in front of what follows `A`. -/
def lastOr (a : Ptr) : List Ptr → Ptr
  | [] => a
  | x :: xs => lastOr x xs

/-- The first node of `B`. -/
def headOr (z : Ptr) : List Ptr → Ptr
  | [] => z
  | x :: _ => x

theorem lastOr_mem (a : Ptr) : ∀ xs : List Ptr, lastOr a xs ∈ a :: xs
  | [] => List.mem_cons_self ..
  | x :: xs => List.mem_cons_of_mem _ (lastOr_mem x xs)

theorem headOr_mem (z : Ptr) : ∀ xs : List Ptr, headOr z xs ∈ xs ++ [z]
  | [] => List.mem_cons_self ..
  | _ :: _ => List.mem_cons_self ..

theorem lastOr_append (a : Ptr) : ∀ (xs : List Ptr) (y : Ptr) (ys : List Ptr), lastOr a (xs ++ y :: ys) = lastOr y ys
  | [], _, _ => rfl
  | x :: xs, y, ys => lastOr_append x xs y ys

theorem chain_next {h : Heap} : ∀ {xs : List Ptr} {a z : Ptr}, Chain h a xs z → h.next a = headOr z xs
  | [], _, _, c => c.1
  | _ :: _, _, _, c => c.1.1

theorem chain_prev {h : Heap} : ∀ {xs : List Ptr} {a z : Ptr}, Chain h a xs z → h.prev z = lastOr a xs
  | [], _, _, c => c.2
  | _ :: xs, _, _, c => chain_prev (xs := xs) c.2

theorem chain_split {h : Heap} : ∀ {xs : List Ptr} {a y z : Ptr} {ys : List Ptr}, Chain h a (xs ++ y :: ys) z ↔ Chain h a xs y ∧ Chain h y ys z
  | [], _, _, _, _ => Iff.rfl
  | x :: xs, a, y, z, ys => by
    show _ ∧ Chain h x (xs ++ y :: ys) z ↔ (_ ∧ _) ∧ _
    rw [chain_split]
    exact and_assoc.symm

theorem chain_frame {h h' : Heap} : ∀ {xs : List Ptr} {a z : Ptr}, Chain h a xs z → (∀ p ∈ a :: xs, h'.next p = h.next p) → (∀ p ∈ xs ++ [z], h'.prev p = h.prev p) → Chain h' a xs z
  | [], a, z, c, hn, hp => ⟨by rw [hn a (by simp)]; exact c.1, by rw [hp z (by simp)]; exact c.2⟩
  | x :: xs, a, z, c, hn, hp => ⟨⟨by rw [hn a (by simp)]; exact c.1.1, by rw [hp x (by simp)]; exact c.1.2⟩,
      chain_frame c.2 (fun p hm => hn p (List.mem_cons_of_mem _ hm)) (fun p hm => hp p (List.mem_cons_of_mem _ hm))⟩

theorem IsList.frame {h h' : Heap} {hd : Ptr} {xs S : List Ptr} (l : IsList h hd xs) (s : Same h h' S) (hS : ∀ p ∈ hd :: xs, p ∉ S) : IsList h' hd xs := by
  refine ⟨chain_frame l.chain (fun p hp => (s p (hS p hp)).1) (fun p hp => (s p (hS p ?_)).2.1), l.nodup, fun p hp => by rw [(s p (hS p hp)).2.2]; exact l.live p hp⟩
  rcases List.mem_append.1 hp with hp | hp
  · exact List.mem_cons_of_mem _ hp
  · rw [List.mem_singleton.1 hp]; exact List.mem_cons_self ..

/-! ## Adding -/

/-- The nodes after `__list_add`. -/
def added (h : Heap) (new p n : Ptr) : Heap :=
  { h with next := set (set h.next new n) p new, prev := set (set h.prev n new) new p }

theorem set_eq {α : Type} {f : Ptr → α} {k j : Ptr} {v : α} (e : j = k) : set f k v j = v := if_pos e
theorem set_ne {α : Type} {f : Ptr → α} {k j : Ptr} {v : α} (e : j ≠ k) : set f k v j = f j := if_neg e

theorem addBetween_eq {h : Heap} {new p n : Ptr} (l1 : h.live new = true) (l2 : h.live p = true) (l3 : h.live n = true) : addBetween h new p n = .ok (added h new p n) := by
  unfold addBetween wrPrev wrNext
  simp only [l1, l2, l3, if_true, Out.ok_bind]
  rfl

theorem added_chain {h : Heap} {new z : Ptr} {B : List Ptr} : ∀ {A : List Ptr} {a : Ptr}, Chain h a (A ++ B) z → (a :: (A ++ B)).Nodup → z ∉ A ++ B → new ∉ a :: (A ++ B) → new ≠ z →
    Chain (added h new (lastOr a A) (headOr z B)) a (A ++ new :: B) z
  | [], a, c, nd, hz, hn, hz' => by
    simp only [List.nil_append] at c nd hz hn ⊢
    have ha : a ≠ new := fun e => hn (by rw [e]; exact List.mem_cons_self ..)
    refine ⟨⟨set_eq rfl, set_eq rfl⟩, ?_⟩
    cases B with
    | nil =>
      exact ⟨by show set _ _ _ _ = _; rw [set_ne (by exact fun e => ha e.symm), set_eq rfl]; rfl, by show set _ _ _ _ = _; rw [set_ne hz'.symm]; exact set_eq rfl⟩
    | cons y ys =>
      have hy : y ≠ new := fun e => hn (by rw [e]; simp)
      refine ⟨⟨by show set _ _ _ _ = _; rw [set_ne (by exact fun e => ha e.symm), set_eq rfl]; rfl, by show set _ _ _ _ = _; rw [set_ne hy]; exact set_eq rfl⟩, ?_⟩
      refine chain_frame c.2 (fun p hp => ?_) (fun p hp => ?_)
      · show set (set _ _ _) _ _ _ = _
        rw [set_ne, set_ne]
        · intro e; subst e; exact hn (List.mem_cons_of_mem _ hp)
        · intro e; subst e; exact (List.nodup_cons.1 nd).1 hp
      · show set (set _ _ _) _ _ _ = _
        have nd2 := (List.nodup_cons.1 (List.nodup_cons.1 nd).2).1
        rw [set_ne, set_ne]
        · rcases List.mem_append.1 hp with hp | hp
          · intro e
            have e : p = y := e
            subst e; exact nd2 hp
          · intro e
            have e : p = y := e
            rw [List.mem_singleton.1 hp] at e
            exact hz (by rw [e]; exact List.mem_cons_self ..)
        · rcases List.mem_append.1 hp with hp | hp
          · intro e; subst e; exact hn (by simp [hp])
          · rw [List.mem_singleton.1 hp]; exact hz'.symm
  | x :: A, a, c, nd, hz, hn, hz' => by
    have ha : a ≠ new := fun e => hn (by rw [e]; exact List.mem_cons_self ..)
    have hx : x ≠ new := fun e => hn (by rw [e]; simp)
    obtain ⟨n1, n2⟩ := List.nodup_cons.1 nd
    obtain ⟨n3, n4⟩ := List.nodup_cons.1 (show (x :: (A ++ B)).Nodup from n2)
    refine ⟨⟨?_, ?_⟩, added_chain c.2 n2 (fun h => hz (List.mem_cons_of_mem _ h)) (fun h => hn (List.mem_cons_of_mem _ h)) hz'⟩
    · show set (set _ _ _) _ _ _ = _
      rw [set_ne, set_ne ha, c.1.1]
      intro e
      have := lastOr_mem x A
      have e : a = lastOr x A := e
      rw [← e] at this
      exact n1 (by rw [List.cons_append]; rcases List.mem_cons.1 this with h | h <;> simp [h])
    · show set (set _ _ _) _ _ _ = _
      rw [set_ne hx, set_ne, c.1.2]
      intro e
      have := headOr_mem z B
      rw [← e] at this
      rcases List.mem_append.1 this with h | h
      · exact n3 (List.mem_append_right _ h)
      · exact hz (by rw [← List.mem_singleton.1 h]; exact List.mem_cons_self ..)

theorem added_list {h : Heap} {hd new : Ptr} {A B : List Ptr} (l : IsList h hd (A ++ B)) (hn : new ∉ hd :: (A ++ B)) (hl : h.live new = true) :
    addBetween h new (lastOr hd A) (headOr hd B) = .ok (added h new (lastOr hd A) (headOr hd B)) ∧ IsList (added h new (lastOr hd A) (headOr hd B)) hd (A ++ new :: B) ∧
      Same h (added h new (lastOr hd A) (headOr hd B)) (new :: hd :: (A ++ B)) := by
  have m1 : lastOr hd A ∈ hd :: (A ++ B) := by
    rcases List.mem_cons.1 (lastOr_mem hd A) with h | h
    · rw [h]; exact List.mem_cons_self ..
    · exact List.mem_cons_of_mem _ (List.mem_append_left _ h)
  have m2 : headOr hd B ∈ hd :: (A ++ B) := by
    rcases List.mem_append.1 (headOr_mem hd B) with h | h
    · exact List.mem_cons_of_mem _ (List.mem_append_right _ h)
    · rw [List.mem_singleton.1 h]; exact List.mem_cons_self ..
  refine ⟨addBetween_eq hl (l.live _ m1) (l.live _ m2), ⟨added_chain l.chain l.nodup (List.nodup_cons.1 l.nodup).1 hn (fun e => hn (by rw [e]; exact List.mem_cons_self ..)), ?_, ?_⟩, ?_⟩
  · have e : (hd :: (A ++ new :: B)).Perm (new :: hd :: (A ++ B)) := ((List.perm_middle (l₁ := hd :: A) (l₂ := B) (a := new)))
    exact e.nodup_iff.2 (List.nodup_cons.2 ⟨hn, l.nodup⟩)
  · intro p hp
    have : p = new ∨ p ∈ hd :: (A ++ B) := by
      simp only [List.mem_cons, List.mem_append] at hp ⊢
      rcases hp with h | h | h | h <;> simp [h]
    rcases this with rfl | h
    · exact hl
    · exact l.live p h
  · intro q hq
    refine ⟨?_, ?_, rfl⟩
    · show set (set _ _ _) _ _ _ = _
      rw [set_ne, set_ne]
      · exact fun e => hq (by rw [e]; exact List.mem_cons_self ..)
      · exact fun e => hq (List.mem_cons_of_mem _ (by rw [e]; exact m1))
    · show set (set _ _ _) _ _ _ = _
      rw [set_ne, set_ne]
      · exact fun e => hq (List.mem_cons_of_mem _ (by rw [e]; exact m2))
      · exact fun e => hq (by rw [e]; exact List.mem_cons_self ..)

/-- What is next to a node. -/
theorem list_next {h : Heap} {hd : Ptr} {A B : List Ptr} (l : IsList h hd (A ++ B)) : h.next (lastOr hd A) = headOr hd B ∧ h.live (lastOr hd A) = true := by
  cases A with
  | nil => exact ⟨chain_next l.chain, l.live _ (List.mem_cons_self ..)⟩
  | cons x A =>
    obtain ⟨A', y, e⟩ : ∃ A' y, x :: A = A' ++ [y] := ⟨(x :: A).dropLast, (x :: A).getLast (by simp), (List.dropLast_concat_getLast (by simp)).symm⟩
    rw [e] at l ⊢
    rw [lastOr_append]
    have c := l.chain
    rw [List.append_assoc] at c
    exact ⟨chain_next (chain_split.1 c).2, l.live _ (by simp [lastOr])⟩

theorem list_prev {h : Heap} {hd : Ptr} {A B : List Ptr} (l : IsList h hd (A ++ B)) : h.prev (headOr hd B) = lastOr hd A ∧ h.live (headOr hd B) = true := by
  cases B with
  | nil =>
    have c := l.chain
    rw [List.append_nil] at c
    exact ⟨chain_prev c, l.live _ (List.mem_cons_self ..)⟩
  | cons y B => exact ⟨chain_prev (chain_split.1 l.chain).1, l.live _ (by simp [headOr])⟩

/-- `list_add` behind a node. -/
theorem add_list {h : Heap} {hd new : Ptr} {A B : List Ptr} (l : IsList h hd (A ++ B)) (hn : new ∉ hd :: (A ++ B)) (hl : h.live new = true) :
    ∃ h', add h new (lastOr hd A) = .ok h' ∧ IsList h' hd (A ++ new :: B) ∧ Same h h' (new :: hd :: (A ++ B)) := by
  obtain ⟨e1, e2⟩ := list_next l
  obtain ⟨k1, k2⟩ := added_list l hn hl
  refine ⟨_, ?_, k2⟩
  unfold add rdNext
  rw [if_pos e2, Out.ok_bind, e1, k1]

/-- `list_add_tail` in front of a node. -/
theorem addTail_list {h : Heap} {hd new : Ptr} {A B : List Ptr} (l : IsList h hd (A ++ B)) (hn : new ∉ hd :: (A ++ B)) (hl : h.live new = true) :
    ∃ h', addTail h new (headOr hd B) = .ok h' ∧ IsList h' hd (A ++ new :: B) ∧ Same h h' (new :: hd :: (A ++ B)) := by
  obtain ⟨e1, e2⟩ := list_prev l
  obtain ⟨k1, k2⟩ := added_list l hn hl
  refine ⟨_, ?_, k2⟩
  unfold addTail rdPrev
  rw [if_pos e2, Out.ok_bind, e1, k1]

/-! ## Deleting -/

/-- The nodes after `list_del`. -/
def deleted (h : Heap) (e p n : Ptr) : Heap :=
  { h with next := set (set h.next p n) e .poison1, prev := set (set h.prev n p) e .poison2 }

theorem deleted_chain {h : Heap} {e z : Ptr} {B : List Ptr} : ∀ {A : List Ptr} {a : Ptr}, Chain h a (A ++ e :: B) z → (a :: (A ++ e :: B)).Nodup → z ∉ A ++ e :: B →
    Chain (deleted h e (lastOr a A) (headOr z B)) a (A ++ B) z
  | [], a, c, nd, hz => by
    simp only [List.nil_append] at c nd hz ⊢
    obtain ⟨n1, n2⟩ := List.nodup_cons.1 nd
    obtain ⟨n3, n4⟩ := List.nodup_cons.1 n2
    have ha : a ≠ e := fun q => n1 (by rw [q]; exact List.mem_cons_self ..)
    have hz' : z ≠ e := fun q => hz (by rw [q]; exact List.mem_cons_self ..)
    cases B with
    | nil => exact ⟨by show set (set _ _ _) _ _ _ = _; rw [set_ne ha]; exact set_eq rfl, by show set (set _ _ _) _ _ _ = _; rw [set_ne hz']; exact set_eq rfl⟩
    | cons y ys =>
      have hy : y ≠ e := fun q => n3 (by rw [q]; exact List.mem_cons_self ..)
      refine ⟨⟨by show set (set _ _ _) _ _ _ = _; rw [set_ne ha]; exact set_eq rfl, by show set (set _ _ _) _ _ _ = _; rw [set_ne hy]; exact set_eq rfl⟩, ?_⟩
      refine chain_frame c.2.2 (fun p hp => ?_) (fun p hp => ?_)
      · show set (set _ _ _) _ _ _ = _
        rw [set_ne, set_ne]
        · exact fun q => n1 (List.mem_cons_of_mem _ (by rw [← show p = a from q]; exact hp))
        · exact fun q => n3 (by rw [← q]; exact hp)
      · show set (set _ _ _) _ _ _ = _
        rw [set_ne, set_ne]
        · intro q
          have q : p = y := q
          rcases List.mem_append.1 hp with hp | hp
          · exact (List.nodup_cons.1 n4).1 (by rw [← q]; exact hp)
          · exact hz (by rw [← List.mem_singleton.1 hp, q]; simp)
        · intro q
          rcases List.mem_append.1 hp with hp | hp
          · exact n3 (by rw [← q]; exact List.mem_cons_of_mem _ hp)
          · exact hz' (by rw [← List.mem_singleton.1 hp, q])
  | x :: A, a, c, nd, hz => by
    obtain ⟨n1, n2⟩ := List.nodup_cons.1 nd
    obtain ⟨n3, n4⟩ := List.nodup_cons.1 (show (x :: (A ++ e :: B)).Nodup from n2)
    refine ⟨⟨?_, ?_⟩, deleted_chain c.2 n2 (fun h => hz (List.mem_cons_of_mem _ h))⟩
    · show set (set _ _ _) _ _ _ = _
      rw [set_ne, set_ne, c.1.1]
      · intro q
        have q : a = lastOr x A := q
        have := lastOr_mem x A
        rw [← q] at this
        exact n1 (by rw [List.cons_append]; rcases List.mem_cons.1 this with h | h <;> simp [h])
      · exact fun q => n1 (by rw [q]; simp)
    · show set (set _ _ _) _ _ _ = _
      rw [set_ne, set_ne, c.1.2]
      · intro q
        have := headOr_mem z B
        rw [← q] at this
        rcases List.mem_append.1 this with h | h
        · exact n3 (by simp [h])
        · exact hz (by rw [← List.mem_singleton.1 h]; exact List.mem_cons_self ..)
      · exact fun q => n3 (by rw [q]; simp)

/-- `list_del` -/
theorem del_list {h : Heap} {hd e : Ptr} {A B : List Ptr} (l : IsList h hd (A ++ e :: B)) :
    ∃ h', del h e = .ok h' ∧ IsList h' hd (A ++ B) ∧ Same h h' (hd :: (A ++ e :: B)) ∧ h'.live = h.live := by
  have p := list_prev (A := A) (B := e :: B) l
  have l' : IsList h hd ((A ++ [e]) ++ B) := by rw [List.append_assoc]; exact l
  have n := list_next l'
  rw [lastOr_append] at n
  have n2 := list_prev l'
  have p2 := list_next (A := A) (B := e :: B) l
  have hp : h.prev e = lastOr hd A := p.1
  have hn : h.next e = headOr hd B := n.1
  have he : h.live e = true := p.2
  refine ⟨deleted h e (lastOr hd A) (headOr hd B), ?_, ⟨deleted_chain l.chain l.nodup (List.nodup_cons.1 l.nodup).1, ?_, fun q hq => l.live q ?_⟩, ?_, rfl⟩
  · unfold del rdPrev rdNext wrPrev wrNext
    simp only [he, if_true, Out.ok_bind, hp, hn, n2.2, p2.2]
    rfl
  · have e' : (hd :: (A ++ e :: B)).Perm (e :: hd :: (A ++ B)) := ((List.perm_middle (l₁ := hd :: A) (l₂ := B) (a := e)))
    exact (List.nodup_cons.1 (e'.nodup_iff.1 l.nodup)).2
  · simp only [List.mem_cons, List.mem_append] at hq ⊢
    rcases hq with h | h | h <;> simp [h]
  · intro q hq
    have m1 : lastOr hd A ∈ hd :: (A ++ e :: B) := by
      rcases List.mem_cons.1 (lastOr_mem hd A) with h | h
      · rw [h]; exact List.mem_cons_self ..
      · exact List.mem_cons_of_mem _ (List.mem_append_left _ h)
    have m2 : headOr hd B ∈ hd :: (A ++ e :: B) := by
      rcases List.mem_append.1 (headOr_mem hd B) with h | h
      · exact List.mem_cons_of_mem _ (List.mem_append_right _ (List.mem_cons_of_mem _ h))
      · rw [List.mem_singleton.1 h]; exact List.mem_cons_self ..
    have m3 : e ∈ hd :: (A ++ e :: B) := by simp
    refine ⟨?_, ?_, rfl⟩
    · show set (set _ _ _) _ _ _ = _
      rw [set_ne (fun x => hq (by rw [x]; exact m3)), set_ne (fun x => hq (by rw [x]; exact m1))]
    · show set (set _ _ _) _ _ _ = _
      rw [set_ne (fun x => hq (by rw [x]; exact m3)), set_ne (fun x => hq (by rw [x]; exact m2))]

/-- `INIT_LIST_HEAD` -/
theorem init_list {h : Heap} {hd : Ptr} (hl : h.live hd = true) : ∃ h', init h hd = .ok h' ∧ IsList h' hd [] ∧ Same h h' [hd] ∧ h'.live = h.live := by
  refine ⟨{ h with next := set h.next hd hd, prev := set h.prev hd hd }, ?_, ⟨⟨set_eq rfl, set_eq rfl⟩, by simp, fun p hp => ?_⟩, fun q hq => ?_, rfl⟩
  · unfold init wrNext wrPrev
    simp only [hl, if_true, Out.ok_bind]
  · rw [List.mem_singleton.1 hp]; exact hl
  · have : q ≠ hd := fun e => hq (by rw [e]; exact List.mem_cons_self ..)
    exact ⟨set_ne this, set_ne this, rfl⟩

end Verif.Links
