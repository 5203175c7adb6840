import Verif.Links.Lemmas
import Verif.Edit.Graph
/-!
# C72: linked lists hold the sequences that the rest of the model works with

The model of the editing interface (`Verif.Edit`) keeps the instructions of a block as a list.  Here: the operations on nodes in memory do what the operations on lists do, and touch nothing else.
-/
namespace Verif.Links
open Verif Verif.IR Verif.Edit

theorem insn_inj {x y : Nat} : Ptr.insn x = Ptr.insn y ↔ x = y := ⟨fun h => by cases h; rfl, fun h => by rw [h]⟩

theorem mem_nodes {x : Nat} {l : List Nat} : Ptr.insn x ∈ l.map Ptr.insn ↔ x ∈ l := by
  rw [List.mem_map]
  exact ⟨fun ⟨y, hy, e⟩ => by cases e; exact hy, fun h => ⟨x, h, rfl⟩⟩

theorem head_nodes {b : Nat} {l : List Nat} : Ptr.head b ∉ l.map Ptr.insn := fun h => by
  obtain ⟨_, _, e⟩ := List.mem_map.1 h
  cases e

/-! ## One block changes -/

theorem holds_upd {h h' : Heap} {f g : Fn} {b x : Nat} {l : List Nat} (ht : Tidy f) (H : Holds h f) (hb : b ∈ f.allBbs) (hx : ∀ c ∈ f.allBbs, c ≠ b → x ∉ f.body c) (ea : g.allBbs = f.allBbs)
    (eb : g.body = upd f.body b l) (hl : IsList h' (.head b) (l.map .insn)) (hs : Same h h' (.insn x :: .head b :: (f.body b).map .insn)) : Holds h' g := by
  intro c hc
  rw [ea] at hc
  rw [eb]
  by_cases e : c = b
  · rw [e, upd_same]; exact hl
  · rw [upd_ne _ _ e]
    refine (H c hc).frame hs fun p hp hm => ?_
    rcases List.mem_cons.1 hp with rfl | hp
    · rcases List.mem_cons.1 hm with h | h
      · cases h
      · rcases List.mem_cons.1 h with h | h
        · cases h; exact e rfl
        · exact head_nodes h
    · obtain ⟨y, hy, rfl⟩ := List.mem_map.1 hp
      rcases List.mem_cons.1 hm with h | h
      · cases h; exact hx c hc e hy
      · rcases List.mem_cons.1 h with h | h
        · cases h
        · have := mem_nodes.1 h
          exact e ((ht.parent c hc y hy).symm.trans (ht.parent b hb y this))

theorem malloc_holds {h : Heap} {f : Fn} {p : Ptr} (H : Holds h f) : Holds (malloc h p) f := fun b hb =>
  ⟨chain_frame (H b hb).chain (fun _ _ => rfl) (fun _ _ => rfl), (H b hb).nodup, fun q hq => by
    show set h.live p true q = true
    by_cases e : q = p
    · exact set_eq e
    · rw [set_ne e]; exact (H b hb).live q hq⟩

/-! ## Reading -/

theorem empty_list {h : Heap} {hd : Ptr} {xs : List Ptr} (l : IsList h hd xs) : empty h hd = .ok xs.isEmpty := by
  unfold empty rdNext
  rw [if_pos (l.live _ (List.mem_cons_self ..)), Out.ok_bind, chain_next l.chain]
  cases xs with
  | nil => simp [headOr]
  | cons x xs =>
    have : x ≠ hd := fun e => (List.nodup_cons.1 l.nodup).1 (by rw [e]; exact List.mem_cons_self ..)
    simp [headOr, this]

theorem lastOr_last (a : Ptr) (A : List Ptr) (y : Ptr) : lastOr a (A ++ [y]) = y := by rw [lastOr_append]; rfl

theorem last_split {α : Type} {l : List α} {a : α} (h : l.getLast? = some a) : ∃ A, l = A ++ [a] := by
  have hn : l ≠ [] := fun e => by rw [e] at h; cases h
  refine ⟨l.dropLast, ?_⟩
  rw [List.getLast?_eq_some_getLast hn] at h
  cases h
  exact (List.dropLast_concat_getLast hn).symm

/-- **C72**, reading: first and last instruction, whether there is one, and what is next to an instruction. -/
theorem C72_reads {h : Heap} {f : Fn} (ht : Tidy f) (H : Holds h f) {b : Nat} (hb : b ∈ f.allBbs) :
    empty h (.head b) = .ok (f.body b).isEmpty ∧ firstInsn h b = .ok ((f.body b).head?.map .insn) ∧ lastInsn h b = .ok ((f.body b).getLast?.map .insn) ∧
    ∀ x ∈ f.body b, prevInsn h x b = .ok ((Edit.prevInsn f x).map .insn) ∧ nextInsn h x b = .ok ((Edit.nextInsn f x).map .insn) := by
  have l := H b hb
  have e := empty_list l
  refine ⟨by rw [e]; simp, ?_, ?_, fun x hx => ?_⟩
  · unfold firstInsn
    rw [e, Out.ok_bind]
    cases hf : f.body b with
    | nil => rfl
    | cons y ys =>
      rw [hf] at l
      unfold rdNext
      rw [if_pos (l.live _ (List.mem_cons_self ..)), chain_next l.chain]
      rfl
  · unfold lastInsn
    rw [e, Out.ok_bind]
    cases hf : (f.body b).getLast? with
    | none => rw [List.getLast?_eq_none_iff.1 hf]; rfl
    | some y =>
      obtain ⟨A, hA⟩ := last_split hf
      rw [hA] at l ⊢
      unfold rdPrev
      rw [if_pos (l.live _ (List.mem_cons_self ..)), chain_prev l.chain, List.map_append, List.map_cons, List.map_nil, lastOr_last]
      simp [Out.ok_bind]
  · obtain ⟨A, B, h1, h2, h3, h4⟩ := take_drop (f.body b) x hx
    have hp := ht.parent b hb x hx
    rw [h1, List.map_append, List.map_cons] at l
    have p := list_prev (A := A.map .insn) (B := .insn x :: B.map .insn) l
    have n := list_next (A := A.map .insn ++ [.insn x]) (B := B.map .insn) (by rw [List.append_assoc]; exact l)
    rw [lastOr_last] at n
    have p1 : h.prev (.insn x) = lastOr (.head b) (A.map .insn) := p.1
    have pl : h.live (.insn x) = true := p.2
    unfold prevInsn nextInsn rdPrev rdNext Edit.prevInsn Edit.nextInsn
    rw [if_pos pl, if_pos pl, Out.ok_bind, Out.ok_bind, hp, h3, h4, p1, n.1, List.tail_cons]
    refine ⟨?_, ?_⟩
    · cases hA : A.getLast? with
      | none => rw [List.getLast?_eq_none_iff.1 hA]; exact congrArg Out.ok (if_pos rfl)
      | some y =>
        obtain ⟨A', e'⟩ := last_split hA
        rw [e', List.map_append, List.map_cons, List.map_nil, lastOr_last]
        rfl
    · cases B with
      | nil => simp [headOr]
      | cons y B => simp [headOr]

/-! ## Adding -/

/-- In front of, or behind, an instruction or the head. -/
theorem addTail_at {h : Heap} {hd : Ptr} {A B : List Nat} {x : Nat} {p : Ptr} (l : IsList h hd ((A ++ B).map .insn)) (hn : x ∉ A ++ B) (hh : Ptr.insn x ≠ hd) (hl : h.live (.insn x) = true)
    (e : p = headOr hd (B.map .insn)) : ∃ h', addTail h (.insn x) p = .ok h' ∧ IsList h' hd ((A ++ x :: B).map .insn) ∧ Same h h' (.insn x :: hd :: (A ++ B).map .insn) := by
  subst e
  rw [List.map_append] at l ⊢
  rw [List.map_append, List.map_cons]
  exact addTail_list l (fun hm => by
    rcases List.mem_cons.1 hm with h | h
    · exact hh h
    · rw [← List.map_append] at h; exact hn (mem_nodes.1 h)) hl

theorem add_at {h : Heap} {hd : Ptr} {A B : List Nat} {x : Nat} {p : Ptr} (l : IsList h hd ((A ++ B).map .insn)) (hn : x ∉ A ++ B) (hh : Ptr.insn x ≠ hd) (hl : h.live (.insn x) = true)
    (e : p = lastOr hd (A.map .insn)) : ∃ h', add h (.insn x) p = .ok h' ∧ IsList h' hd ((A ++ x :: B).map .insn) ∧ Same h h' (.insn x :: hd :: (A ++ B).map .insn) := by
  subst e
  rw [List.map_append] at l ⊢
  rw [List.map_append, List.map_cons]
  exact add_list l (fun hm => by
    rcases List.mem_cons.1 hm with h | h
    · exact hh h
    · rw [← List.map_append] at h; exact hn (mem_nodes.1 h)) hl

/-- Where the loop over the phis stops. -/
theorem seek_list {op : Nat → Op} {h : Heap} {hd : Ptr} (hh : ∀ x, Ptr.insn x ≠ hd) : ∀ {B A : List Nat} {k : Nat}, IsList h hd ((A ++ B).map .insn) → B.length < k →
    seek op h hd k (headOr hd (B.map .insn)) = .ok (headOr hd ((B.dropWhile fun x => op x = .phi).map .insn))
  | _, _, 0, _, hk => absurd hk (by omega)
  | [], A, k + 1, l, _ => by simp [seek, headOr]
  | y :: B, A, k + 1, l, hk => by
    have l' : IsList h hd (((A ++ [y]) ++ B).map .insn) := by rw [List.append_assoc]; exact l
    have n := list_next (A := (A ++ [y]).map .insn) (B := B.map .insn) (by rw [← List.map_append]; exact l')
    rw [List.map_append, List.map_cons, List.map_nil, lastOr_last] at n
    simp only [List.length_cons] at hk
    unfold seek
    rw [List.map_cons, headOr, if_neg (hh y)]
    show (Out.ok (op y) >>= _) = _
    rw [Out.ok_bind]
    by_cases e : op y = .phi
    · rw [if_neg (by simp [e]), List.dropWhile_cons, if_pos (by simp [e])]
      unfold rdNext
      rw [if_pos n.2, Out.ok_bind, n.1]
      exact seek_list hh l' (by omega)
    · rw [if_pos e, List.dropWhile_cons, if_neg (by simp [e])]
      rfl

/-- Inserting into the list of a block, core/ir_insn.c:229-270, does what `placeBb` does. -/
theorem insertAtBb_list {h : Heap} {f : Fn} {x b k : Nat} {l : List Nat} (hl : IsList h (.head b) (l.map .insn)) (hx : x ∉ l) (hv : h.live (.insn x) = true) (hk : l.length < k) (pos : Pos) :
    ∃ h', insertAtBb (fun y => (f.insn y).op) h x b k pos = .ok h' ∧ IsList h' (.head b) ((placeBb f l x pos).map .insn) ∧ Same h h' (.insn x :: .head b :: l.map .insn) := by
  have ne : Ptr.insn x ≠ Ptr.head b := by simp
  have back : ∃ h', addTail h (.insn x) (.head b) = .ok h' ∧ IsList h' (.head b) ((l ++ [x]).map .insn) ∧ Same h h' (.insn x :: .head b :: l.map .insn) := by
    have := addTail_at (A := l) (B := []) (p := .head b) (by rw [List.append_nil]; exact hl) (by rw [List.append_nil]; exact hx) ne hv rfl
    rwa [List.append_nil] at this
  cases pos with
  | back => exact back
  | front => exact add_at (A := []) (B := l) (p := .head b) hl hx ne hv rfl
  | backBeforeJmp =>
    have lst : lastInsn h b = .ok (l.getLast?.map .insn) := by
      unfold lastInsn
      rw [empty_list hl, Out.ok_bind]
      cases hf : l.getLast? with
      | none => rw [List.getLast?_eq_none_iff.1 hf]; rfl
      | some y =>
        obtain ⟨A, hA⟩ := last_split hf
        rw [hA] at hl ⊢
        unfold rdPrev
        rw [if_pos (hl.live _ (List.mem_cons_self ..)), chain_prev hl.chain, List.map_append, List.map_cons, List.map_nil, lastOr_last]
        simp [Out.ok_bind]
    unfold insertAtBb placeBb
    rw [lst, Out.ok_bind]
    cases hf : l.getLast? with
    | none => exact back
    | some y =>
      dsimp only [Option.map]
      show ∃ h', (Out.ok _ >>= _) = _ ∧ _
      rw [Out.ok_bind]
      by_cases j : isJmp (f.insn y).op = true
      · rw [if_pos j, if_pos j]
        obtain ⟨A, hA⟩ := last_split hf
        have hy : y ∉ A := fun hm => by
          have nd := (List.nodup_cons.1 hl.nodup).2
          rw [hA, List.map_append, List.nodup_append] at nd
          exact nd.2.2 _ (mem_nodes.2 hm) _ (mem_nodes.2 (List.mem_cons_self ..)) rfl
        obtain ⟨A', B', e1, e2, e3, e4⟩ := take_drop l y (by rw [hA]; simp)
        unfold insBefore
        rw [e3, e4]
        have := addTail_at (A := A') (B := y :: B') (p := .insn y) (by rw [← e1]; exact hl) (by rw [← e1]; exact hx) ne hv rfl
        rwa [← e1] at this
      · rw [if_neg j, if_neg j]
        exact back
  | frontAfterPhi =>
    have n := list_next (A := []) (B := l.map .insn) hl
    have sk := seek_list (op := fun y => (f.insn y).op) (by simp) (A := []) (B := l) hl hk
    unfold insertAtBb
    unfold rdNext
    rw [if_pos (show h.live (.head b) = true from n.2), Out.ok_bind, show h.next (.head b) = _ from n.1, sk, Out.ok_bind]
    have e : l.takeWhile (fun y => (f.insn y).op = .phi) ++ l.dropWhile (fun y => (f.insn y).op = .phi) = l := List.takeWhile_append_dropWhile ..
    obtain ⟨h', k1, k2, k3⟩ := addTail_at (A := l.takeWhile (fun y => (f.insn y).op = .phi)) (B := l.dropWhile (fun y => (f.insn y).op = .phi)) (by rw [e]; exact hl) (by rw [e]; exact hx) ne hv rfl
    rw [e] at k3
    refine ⟨h', k1, ?_, k3⟩
    have pl : placeBb f l x .frontAfterPhi = l.takeWhile (fun y => (f.insn y).op = .phi) ++ x :: l.dropWhile (fun y => (f.insn y).op = .phi) := by
      have nd : l.Nodup := by
        have := (List.nodup_cons.1 hl.nodup).2
        exact (List.pairwise_map.1 this).imp fun h e => h (by rw [e])
      clear k1 k2 k3 sk n e hl hk hx hv back
      unfold placeBb
      induction l with
      | nil => rfl
      | cons y l ih =>
        obtain ⟨n1, n2⟩ := List.nodup_cons.1 nd
        by_cases hp : (f.insn y).op = .phi
        · rw [List.find?_cons_of_neg (by simp [hp]), List.takeWhile_cons, if_pos (by simp [hp]), List.dropWhile_cons, if_pos (by simp [hp])]
          have ih := ih n2
          cases hf : l.find? (fun a => (f.insn a).op != .phi) with
          | none => rw [hf] at ih; rw [List.cons_append, List.cons_append, ← ih]
          | some a =>
            rw [hf] at ih
            have hay : y ≠ a := fun e => n1 (by rw [e]; exact List.mem_of_find?_eq_some hf)
            unfold insBefore at ih ⊢
            dsimp only at ih ⊢
            rw [List.takeWhile_cons, if_pos (by simp [hay]), List.dropWhile_cons, if_pos (by simp [hay]), List.cons_append, List.cons_append, ← ih]
        · rw [List.find?_cons_of_pos (by simp [hp]), List.takeWhile_cons, if_neg (by simp [hp]), List.dropWhile_cons, if_neg (by simp [hp])]
          simp [insBefore]
    rw [pl]
    exact k2

theorem fresh_body {f : Fn} (ht : Tidy f) {c : Nat} (hc : c ∈ f.allBbs) : f.next ∉ f.body c := fun h => by
  have := ht.lt f.next (.inr (.inr ⟨c, hc, h⟩))
  omega

/-- **C72**, a new instruction in a block. -/
theorem C72_create {h : Heap} {f : Fn} (ht : Tidy f) (H : Holds h f) {b : Nat} (hb : b ∈ f.allBbs) (i : Insn) (pos : Pos) {k : Nat} (hk : (f.body b).length < k) :
    ∃ h', insertAtBb (fun y => ((alloc f i b).insn y).op) (malloc h (.insn f.next)) f.next b k pos = .ok h' ∧ Holds h' (createBb f i b pos) := by
  have hs := alloc_same f i b
  obtain ⟨h', k1, k2, k3⟩ := insertAtBb_list (f := alloc f i b) ((malloc_holds H) b hb) (fresh_body ht hb) (set_eq rfl) hk pos
  refine ⟨h', k1, holds_upd ht (malloc_holds H) hb (fun c hc _ => fresh_body ht hc) ?_ ?_ k2 k3⟩
  · exact hs.allBbs
  · show upd (alloc f i b).body b _ = _
    rw [hs.body]

/-- **C72**, a new instruction next to another. -/
theorem C72_create_at {h : Heap} {f : Fn} (ht : Tidy f) (H : Holds h f) {a : Nat} (hb : f.parent a ∈ f.allBbs) (ha : a ∈ f.body (f.parent a)) (i : Insn) (pos : Pos) {k : Nat}
    (hk : (f.body (f.parent a)).length < k) :
    match createAt f i a pos with
    | .ok g => ∃ h', insertAt (fun y => ((alloc f i (f.parent a)).insn y).op) (malloc h (.insn f.next)) f.next a (f.parent a) k pos = .ok h' ∧ Holds h' g
    | .crit => insertAt (fun y => ((alloc f i (f.parent a)).insn y).op) (malloc h (.insn f.next)) f.next a (f.parent a) k pos = .crit
    | _ => False := by
  have hs := alloc_same f i (f.parent a)
  have hl := (malloc_holds (p := .insn f.next) H) _ hb
  have hx := fresh_body ht hb
  have ne : Ptr.insn f.next ≠ Ptr.head (f.parent a) := by simp
  have fin : ∀ {l : List Nat} {h' : Heap}, IsList h' (.head (f.parent a)) (l.map .insn) → Same (malloc h (.insn f.next)) h' (.insn f.next :: .head (f.parent a) :: (f.body (f.parent a)).map .insn) →
      Holds h' { alloc f i (f.parent a) with next := f.next + 1, body := upd (alloc f i (f.parent a)).body (f.parent a) l } := fun k2 k3 =>
    holds_upd ht (malloc_holds H) hb (fun c hc _ => fresh_body ht hc) hs.allBbs (by show upd (alloc f i (f.parent a)).body _ _ = _; rw [hs.body]) k2 k3
  unfold createAt placeAt insertAt
  have body : (alloc f i (f.parent a)).body = f.body := hs.body
  dsimp only
  rw [body] at fin ⊢
  by_cases hp : ((alloc f i (f.parent a)).insn a).op = .phi ∧ ((alloc f i (f.parent a)).insn f.next).op ≠ .phi
  · rw [if_pos hp, if_pos hp, Out.ok_bind]
    obtain ⟨h', k1, k2, k3⟩ := insertAtBb_list (f := alloc f i (f.parent a)) hl hx (set_eq rfl) hk .frontAfterPhi
    exact ⟨h', k1, fin k2 k3⟩
  · rw [if_neg hp, if_neg hp]
    obtain ⟨A, B, e1, e2, e3, e4⟩ := take_drop (f.body (f.parent a)) a ha
    cases pos with
    | back =>
      rw [Out.ok_bind]
      unfold insAfter
      rw [e3, e4, List.tail_cons]
      obtain ⟨h', k1, k2, k3⟩ := add_at (A := A ++ [a]) (B := B) (p := .insn a) (by rw [List.append_assoc]; rw [e1] at hl; exact hl) (by rw [List.append_assoc]; rw [e1] at hx; exact hx) ne (set_eq rfl)
        (by rw [List.map_append, List.map_cons, List.map_nil, lastOr_last])
      refine ⟨h', k1, fin ?_ ?_⟩
      · rwa [List.append_assoc] at k2
      · rw [List.append_assoc] at k3; rw [e1]; exact k3
    | front =>
      rw [Out.ok_bind]
      unfold insBefore
      rw [e3, e4]
      obtain ⟨h', k1, k2, k3⟩ := addTail_at (A := A) (B := a :: B) (p := .insn a) (by rw [e1] at hl; exact hl) (by rw [e1] at hx; exact hx) ne (set_eq rfl) rfl
      refine ⟨h', k1, fin k2 ?_⟩
      rw [e1]; exact k3
    | backBeforeJmp => rfl
    | frontAfterPhi => rfl

/-! ## Removing -/

theorem erase_split {A B : List Nat} {x : Nat} (h : x ∉ A) : (A ++ x :: B).erase x = A ++ B := by
  rw [List.erase_append_right _ h, List.erase_cons_head]

/-- **C72**, an instruction is erased: its node is in no list any more and freed. -/
theorem C72_erase {h : Heap} {f g : Fn} (ht : Tidy f) (H : Holds h f) {x : Nat} (hb : f.parent x ∈ f.allBbs) (hx : x ∈ f.body (f.parent x)) (he : erase f x = .ok g) :
    ∃ h', eraseInsn h x = .ok h' ∧ Holds h' g ∧ h'.live (.insn x) = false := by
  obtain ⟨_, hs, _⟩ := erase_spec he
  obtain ⟨A, B, e1, e2, _, _⟩ := take_drop (f.body (f.parent x)) x hx
  have l := H _ hb
  rw [e1, List.map_append, List.map_cons] at l
  obtain ⟨h1, k1, k2, k3, k4⟩ := del_list l
  have hd : (Ptr.insn x) ∉ (Ptr.head (f.parent x)) :: (A.map Ptr.insn ++ B.map Ptr.insn) := by
    have e' := (List.perm_middle (l₁ := Ptr.head (f.parent x) :: A.map .insn) (l₂ := B.map .insn) (a := Ptr.insn x))
    exact (List.nodup_cons.1 (e'.nodup_iff.1 l.nodup)).1
  refine ⟨free h1 (.insn x), by unfold eraseInsn; rw [k1, Out.ok_bind], ?_, set_eq rfl⟩
  refine holds_upd (x := x) ht H hb (fun c hc hne hm => hne ((ht.parent c hc x hm).symm)) hs.allBbs hs.body ?_ ?_
  · rw [e1, erase_split e2, List.map_append]
    refine k2.frame (S := [.insn x]) (fun q hq => ⟨rfl, rfl, set_ne (fun e => hq (by rw [e]; exact List.mem_cons_self ..))⟩) (fun p hp hm => hd (by rw [← List.mem_singleton.1 hm]; exact hp))
  · intro q hq
    have hq' : q ∉ Ptr.head (f.parent x) :: (A.map Ptr.insn ++ Ptr.insn x :: B.map Ptr.insn) := fun hm => hq (List.mem_cons_of_mem _ (by rw [e1, List.map_append, List.map_cons]; exact hm))
    obtain ⟨a1, a2, a3⟩ := k3 q hq'
    exact ⟨a1, a2, (set_ne (fun e => hq (by rw [e]; exact List.mem_cons_self ..))).trans a3⟩

/-! ## Blocks -/

theorem createHead_list {h : Heap} {f : Fn} (H : Holds h f) : ∃ h', createHead h (freshBb f) = .ok h' ∧ Holds h' (newBb f) ∧ h'.live = set h.live (.head (freshBb f)) true := by
  obtain ⟨h', k1, k2, k3, k4⟩ := init_list (h := malloc h (.head (freshBb f))) (hd := .head (freshBb f)) (set_eq rfl)
  refine ⟨h', k1, fun b hb => ?_, k4⟩
  rcases List.mem_append.1 hb with hb | hb
  · have ne : b ≠ freshBb f := fun e => fresh_not_mem f (by rw [← e]; exact hb)
    show IsList h' _ ((upd f.body (freshBb f) [] b).map .insn)
    rw [upd_ne _ _ ne]
    refine ((malloc_holds H) b hb).frame k3 fun p hp hm => ?_
    rw [List.mem_singleton.1 hm] at hp
    rcases List.mem_cons.1 hp with e | e
    · cases e; exact ne rfl
    · exact head_nodes e
  · rw [List.mem_singleton.1 hb]
    show IsList h' _ ((upd f.body (freshBb f) [] (freshBb f)).map .insn)
    rw [upd_same]
    exact k2

/-- **C72**, a new block. -/
theorem C72_block {h : Heap} {f : Fn} (H : Holds h f) : ∃ h', createHead h (freshBb f) = .ok h' ∧ Holds h' (newBb f) := by
  obtain ⟨h', k1, k2, _⟩ := createHead_list H
  exact ⟨h', k1, k2⟩

/-- The loop that moves nodes to another list. -/
theorem move_list {hd new : Ptr} : ∀ {T N A : List Ptr} {h : Heap} {k : Nat}, IsList h hd (A ++ T) → IsList h new N → (∀ p ∈ new :: N, p ∉ hd :: (A ++ T)) → T.length < k →
    ∃ h', move hd new k h (headOr hd T) = .ok h' ∧ IsList h' hd A ∧ IsList h' new (N ++ T) ∧ Same h h' (hd :: (A ++ T) ++ new :: N)
  | _, _, _, _, 0, _, _, _, hk => absurd hk (by omega)
  | [], N, A, h, k + 1, l, m, _, _ => ⟨h, by simp [move, headOr], by rwa [List.append_nil] at l, by rwa [List.append_nil], fun _ _ => ⟨rfl, rfl, rfl⟩⟩
  | e :: T, N, A, h, k + 1, l, m, ha, hk => by
    simp only [List.length_cons] at hk
    have hne : e ≠ hd := fun q => (List.nodup_cons.1 l.nodup).1 (by rw [q]; simp)
    have n := list_next (A := A ++ [e]) (B := T) (by rw [List.append_assoc]; exact l)
    rw [lastOr_last] at n
    obtain ⟨h1, k1, k2, k3, k4⟩ := del_list l
    have m1 : IsList h1 new N := m.frame k3 ha
    have he : e ∉ new :: (N ++ []) := fun q => ha e (by rwa [List.append_nil] at q) (by simp)
    obtain ⟨h2, j1, j2, j3⟩ := addTail_list (A := N) (B := []) (new := e) (by rw [List.append_nil]; exact m1) he (by rw [k4]; exact n.2)
    have hd1 : IsList h2 hd (A ++ T) := k2.frame j3 fun p hp q => by
      rcases List.mem_cons.1 q with q | q
      · subst q
        have e' := (List.perm_middle (l₁ := hd :: A) (l₂ := T) (a := p))
        exact (List.nodup_cons.1 (e'.nodup_iff.1 l.nodup)).1 hp
      · rw [List.append_nil] at q
        refine ha p q ?_
        simp only [List.mem_cons, List.mem_append] at hp ⊢
        rcases hp with h | h | h <;> simp [h]
    obtain ⟨h3, i1, i2, i3, i4⟩ := move_list (T := T) (N := N ++ [e]) (k := k) hd1 (by exact j2) (fun p hp q => by
      have hp' : p ∈ new :: N ∨ p = e := by
        simp only [List.mem_cons, List.mem_append, List.not_mem_nil, or_false] at hp ⊢
        rcases hp with h | h | h <;> simp [h]
      rcases hp' with hp | rfl
      · refine ha p hp ?_
        simp only [List.mem_cons, List.mem_append] at q ⊢
        rcases q with h | h | h <;> simp [h]
      · have e' := (List.perm_middle (l₁ := hd :: A) (l₂ := T) (a := p))
        exact (List.nodup_cons.1 (e'.nodup_iff.1 l.nodup)).1 q) (by omega)
    refine ⟨h3, ?_, i2, by rwa [List.append_assoc] at i3, fun q hq => ?_⟩
    · unfold move
      rw [headOr, if_neg hne]
      unfold rdNext
      rw [if_pos n.2, Out.ok_bind, k1, Out.ok_bind, show addTail h1 e new = .ok h2 from j1, Out.ok_bind, n.1]
      exact i1
    · simp only [List.mem_cons, List.mem_append, not_or] at hq
      obtain ⟨a1, a2, a3⟩ := k3 q (by simp only [List.mem_cons, List.mem_append, not_or]; exact ⟨hq.1.1, hq.1.2.1, hq.1.2.2⟩)
      obtain ⟨b1, b2, b3⟩ := j3 q (by simp only [List.mem_cons, List.mem_append, List.not_mem_nil, or_false, not_or]; exact ⟨hq.1.2.2.1, hq.2.1, hq.2.2⟩)
      obtain ⟨c1, c2, c3⟩ := i4 q (by simp only [List.mem_cons, List.mem_append, List.not_mem_nil, or_false, not_or]; exact ⟨⟨hq.1.1, hq.1.2.1, hq.1.2.2.2⟩, hq.2.1, hq.2.2, hq.1.2.2.1⟩)
      exact ⟨c1.trans (b1.trans a1), c2.trans (b2.trans a2), c3.trans (b3.trans a3)⟩

theorem splitEdges_body (f : Fn) (b n : Nat) : (splitEdges f b n).body = f.body ∧ (splitEdges f b n).allBbs = f.allBbs := by
  unfold splitEdges
  have key : ∀ (l : List Nat) (g : Fn), (l.foldl (fun f s => connect (disconnect f b s) n s) g).body = g.body ∧ (l.foldl (fun f s => connect (disconnect f b s) n s) g).allBbs = g.allBbs := fun l => by
    induction l with
    | nil => exact fun g => ⟨rfl, rfl⟩
    | cons s l ih => exact fun g => ih _
  exact key _ _

/-- **C72**, a block is split: the lists of both halves. -/
theorem C72_split {h : Heap} {f : Fn} (ht : Tidy f) (H : Holds h f) {x : Nat} (hb : f.parent x ∈ f.allBbs) (hx : x ∈ f.body (f.parent x)) (pos : Pos) {k : Nat} (hk : (f.body (f.parent x)).length < k) :
    match split f x pos with
    | .ok g => ∃ h', splitAt h x (f.parent x) (freshBb f) k pos = .ok h' ∧ Holds h' g
    | .err => splitAt h x (f.parent x) (freshBb f) k pos = .err
    | _ => False := by
  obtain ⟨h1, k1, k2, _⟩ := createHead_list H
  have ne : f.parent x ≠ freshBb f := fun e => fresh_not_mem f (by rw [← e]; exact hb)
  obtain ⟨eb, ea⟩ := splitEdges_body (newBb f) (f.parent x) (freshBb f)
  have body : (splitEdges (newBb f) (f.parent x) (freshBb f)).body (f.parent x) = f.body (f.parent x) := by rw [eb]; exact upd_ne _ _ ne
  obtain ⟨A, B, e1, e2, e3, e4⟩ := take_drop (f.body (f.parent x)) x hx
  have lb : IsList h1 (.head (f.parent x)) ((f.body (f.parent x)).map .insn) := by
    have := k2 (f.parent x) (List.mem_append_left _ hb)
    rwa [show (newBb f).body (f.parent x) = f.body (f.parent x) from upd_ne _ _ ne] at this
  have ln : IsList h1 (.head (freshBb f)) [] := by
    have := k2 (freshBb f) (List.mem_append_right _ (List.mem_cons_self ..))
    rwa [show (newBb f).body (freshBb f) = [] from upd_same ..] at this
  have go : ∀ (C D : List Nat), f.body (f.parent x) = C ++ D → D ≠ [] →
      ∃ h', move (.head (f.parent x)) (.head (freshBb f)) k h1 (headOr (.head (f.parent x)) (D.map .insn)) = .ok h' ∧
        Holds h' { splitEdges (newBb f) (f.parent x) (freshBb f) with
          body := upd (upd (splitEdges (newBb f) (f.parent x) (freshBb f)).body (f.parent x) C) (freshBb f) D
          parent := fun y => if y ∈ D then freshBb f else (splitEdges (newBb f) (f.parent x) (freshBb f)).parent y } := fun C D e _ => by
    have lb' := lb
    rw [e, List.map_append] at lb'
    obtain ⟨h', m1, m2, m3, m4⟩ := move_list (N := []) (k := k) lb' ln (fun p hp q => by
      rw [List.mem_singleton.1 hp] at q
      rcases List.mem_cons.1 q with q | q
      · exact ne (by injection q with q; exact q.symm)
      · rw [← List.map_append] at q; exact head_nodes q) (by rw [e, List.length_append] at hk; rw [List.length_map]; omega)
    refine ⟨h', m1, fun c hc => ?_⟩
    have hc : c ∈ f.allBbs ++ [freshBb f] := by rw [← show (newBb f).allBbs = f.allBbs ++ [freshBb f] from rfl, ← ea]; exact hc
    show IsList h' _ ((upd (upd (splitEdges (newBb f) (f.parent x) (freshBb f)).body (f.parent x) C) (freshBb f) D c).map .insn)
    rcases List.mem_append.1 hc with hc | hc
    · have nc : c ≠ freshBb f := fun q => fresh_not_mem f (by rw [← q]; exact hc)
      rw [upd_ne _ _ nc]
      by_cases q : c = f.parent x
      · rw [q, upd_same]; exact m2
      · rw [upd_ne _ _ q, eb]
        refine (k2 c (List.mem_append_left _ hc)).frame m4 fun p hp hm => ?_
        rw [show (newBb f).body c = f.body c from upd_ne _ _ nc] at hp
        rcases List.mem_cons.1 hp with rfl | hp
        · simp [q, nc] at hm
        · obtain ⟨y, hy, rfl⟩ := List.mem_map.1 hp
          rw [← List.map_append, ← e] at hm
          simp at hm
          exact q ((ht.parent c hc y hy).symm.trans (ht.parent _ hb y hm))
    · rw [List.mem_singleton.1 hc, upd_same]
      exact m3
  unfold split splitAt
  rw [k1, Out.ok_bind]
  dsimp only
  rw [body]
  cases pos with
  | front =>
    dsimp only
    rw [e3, e4, if_neg (by simp), Out.ok_bind, if_neg (by simp)]
    exact go A (x :: B) e1 (by simp)
  | back =>
    dsimp only
    rw [e3, e4, List.tail_cons]
    have n := list_next (A := (A ++ [x]).map .insn) (B := B.map .insn) (by rw [← List.map_append, List.append_assoc]; rw [e1] at lb; exact lb)
    rw [List.map_append, List.map_cons, List.map_nil, lastOr_last] at n
    unfold rdNext
    rw [if_pos n.2, Out.ok_bind, n.1]
    cases B with
    | nil => rw [if_pos rfl]; exact if_pos rfl
    | cons y B =>
      rw [if_neg (by simp), if_neg (by simp [headOr])]
      exact go (A ++ [x]) (y :: B) (by rw [List.append_assoc]; exact e1) (by simp)
  | backBeforeJmp => rfl
  | frontAfterPhi => rfl

end Verif.Links
