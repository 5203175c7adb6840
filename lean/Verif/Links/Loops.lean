import Verif.Links.Props
/-!
# C72: loops over the lists

`list_for_each_entry` visits the nodes of the list in order if what is done with a node leaves it in the list and does not touch what comes behind it; `list_for_each_entry_safe` also if the node is
taken out of the list and freed.
-/
namespace Verif.Links
open Verif Verif.IR Verif.Edit

variable {σ τ : Type}

theorem Sim.bind {σ' τ' : Type} {rel : σ → τ → Prop} {rel' : σ' → τ' → Prop} {a : Out σ} {b : Out τ} {f : σ → Out σ'} {g : τ → Out τ'} (h : Sim rel a b) (hf : ∀ s t, rel s t → a = .ok s → Sim rel' (f s) (g t)) :
    Sim rel' (a >>= f) (b >>= g) := by
  cases a <;> cases b <;> simp only [Sim] at h
  · exact hf _ _ h rfl
  all_goals exact trivial

/-- **C72**, the plain loop: `rel` relates the state of the C program to that of a program that goes through the sequence of the instructions.  What is done with a node may add nodes in front of it. -/
theorem C72_each (heap : σ → Heap) (hd : Ptr) (body : Ptr → σ → Out σ) (step : Ptr → τ → Out τ) (rel : σ → τ → Prop)
    (hb : ∀ C x R s t, IsList (heap s) hd (C ++ x :: R) → rel s t → Sim (fun s' t' => rel s' t' ∧ ∃ C', IsList (heap s') hd (C' ++ x :: R)) (body x s) (step x t))
    {xs : List Ptr} {s : σ} {t : τ} (hl : IsList (heap s) hd xs) (hr : rel s t) {k : Nat} (hk : xs.length < k) :
    Sim rel (forEach heap hd body k s) (xs.foldlM (fun t x => step x t) t) := by
  have go : ∀ (R C : List Ptr) (k : Nat) (s : σ) (t : τ), IsList (heap s) hd (C ++ R) → rel s t → R.length < k → Sim rel (each heap hd body k (headOr hd R) s) (R.foldlM (fun t x => step x t) t) := by
    intro R
    induction R with
    | nil =>
      intro C k s t _ hr hk
      cases k with
      | zero => exact absurd hk (by simp)
      | succ k => simp only [each, headOr, if_pos]; exact hr
    | cons x R ih =>
      intro C k s t hl hr hk
      cases k with
      | zero => exact absurd hk (by simp)
      | succ k =>
        have hne : x ≠ hd := fun q => (List.nodup_cons.1 hl.nodup).1 (by rw [q]; simp)
        rw [each, headOr, if_neg hne, List.foldlM_cons]
        refine Sim.bind (hb C x R s t hl hr) fun s' t' hr' _ => ?_
        obtain ⟨hr', C', hl'⟩ := hr'
        have n := list_next (A := C' ++ [x]) (B := R) (by rw [List.append_assoc]; exact hl')
        rw [lastOr_last] at n
        unfold rdNext
        rw [if_pos n.2, Out.ok_bind, n.1]
        exact ih (C' ++ [x]) k s' t' (by rw [List.append_assoc]; exact hl') hr' (by simpa using hk)
  have n := list_next (A := []) (B := xs) hl
  unfold forEach rdNext
  rw [if_pos (show (heap s).live hd = true from n.2), Out.ok_bind, show (heap s).next hd = _ from n.1]
  exact go xs [] k s t hl hr hk

/-- **C72**, the safe loop: the node may also go away. -/
theorem C72_safe (heap : σ → Heap) (hd : Ptr) (body : Ptr → σ → Out σ) (step : Ptr → τ → Out τ) (rel : σ → τ → Prop)
    (hb : ∀ C x R s t, IsList (heap s) hd (C ++ x :: R) → rel s t → Sim (fun s' t' => rel s' t' ∧ ∃ C', IsList (heap s') hd (C' ++ R)) (body x s) (step x t))
    {xs : List Ptr} {s : σ} {t : τ} (hl : IsList (heap s) hd xs) (hr : rel s t) {k : Nat} (hk : xs.length < k) :
    Sim rel (forEachSafe heap hd body k s) (xs.foldlM (fun t x => step x t) t) := by
  -- behind the last node the loop has read the first one again
  have go : ∀ (R C : List Ptr) (k : Nat) (n : Ptr) (s : σ) (t : τ), IsList (heap s) hd (C ++ R) → (R ≠ [] → n = headOr hd R.tail) → rel s t → R.length < k →
      Sim rel (eachSafe heap hd body k (headOr hd R) n s) (R.foldlM (fun t x => step x t) t) := by
    intro R
    induction R with
    | nil =>
      intro C k n s t _ _ hr hk
      cases k with
      | zero => exact absurd hk (by simp)
      | succ k => simp only [eachSafe, headOr, if_pos]; exact hr
    | cons x R ih =>
      intro C k n s t hl hn hr hk
      cases k with
      | zero => exact absurd hk (by simp)
      | succ k =>
        have hne : x ≠ hd := fun q => (List.nodup_cons.1 hl.nodup).1 (by rw [q]; simp)
        have hn := hn (by simp)
        rw [List.tail_cons] at hn
        rw [eachSafe, headOr, if_neg hne, List.foldlM_cons]
        refine Sim.bind (hb C x R s t hl hr) fun s' t' hr' _ => ?_
        obtain ⟨hr', C', hl'⟩ := hr'
        rw [hn]
        cases R with
        | nil =>
          have m := hl'.live hd (List.mem_cons_self ..)
          unfold rdNext
          rw [headOr, if_pos m, Out.ok_bind]
          exact ih C' k _ s' t' hl' (fun h => absurd rfl h) hr' (by simpa using hk)
        | cons y R =>
          have m := list_next (A := C' ++ [y]) (B := R) (by rw [List.append_assoc]; exact hl')
          rw [lastOr_last] at m
          unfold rdNext
          rw [headOr, if_pos m.2, Out.ok_bind, m.1]
          exact ih C' k _ s' t' hl' (fun _ => rfl) hr' (by simpa using hk)
  have n := list_next (A := []) (B := xs) hl
  unfold forEachSafe rdNext
  rw [if_pos (show (heap s).live hd = true from n.2), Out.ok_bind, show (heap s).next hd = _ from n.1]
  cases xs with
  | nil =>
    rw [headOr, if_pos (show (heap s).live hd = true from n.2), Out.ok_bind]
    exact go [] [] k _ s t hl (fun h => absurd rfl h) hr hk
  | cons y xs =>
    have m := list_next (A := [y]) (B := xs) hl
    rw [headOr, if_pos (show (heap s).live y = true from m.2), Out.ok_bind]
    exact go (y :: xs) [] k _ s t hl (fun _ => m.1) hr hk

/-- **C72**, the number of instructions in a block. -/
theorem C72_length {h : Heap} {f : Fn} (H : Holds h f) {b : Nat} (hb : b ∈ f.allBbs) {k : Nat} (hk : (f.body b).length < k) : bbLen h b k = .ok (f.body b).length := by
  have := C72_each (σ := Heap × Nat) (τ := Nat) (·.1) (.head b) (fun _ s => .ok (s.1, s.2 + 1)) (fun _ n => .ok (n + 1)) (fun s n => s.2 = n)
    (fun C x R s t hl hr => ⟨by rw [hr], C, hl⟩) (s := (h, 0)) (t := 0) (H b hb) rfl (k := k) (by rwa [List.length_map])
  have e : ∀ (l : List Ptr) (n : Nat), l.foldlM (fun t (_ : Ptr) => (Out.ok (t + 1) : Out Nat)) n = .ok (n + l.length) := by
    intro l
    induction l with
    | nil => intro n; rfl
    | cons x l ih => intro n; rw [List.foldlM_cons, Out.ok_bind, ih, List.length_cons]; congr 1; omega
  rw [e] at this
  unfold bbLen
  cases hf : forEach (σ := Heap × Nat) (·.1) (.head b) (fun _ s => .ok (s.1, s.2 + 1)) k (h, 0) with
  | ok s => rw [hf] at this; simp only [Sim] at this; rw [Out.ok_bind, this]; simp
  | err => rw [hf] at this; exact this.elim
  | crit => rw [hf] at this; exact this.elim
  | ub => rw [hf] at this; exact this.elim

/-- The body of a loop that erases the instructions that meet a condition. -/
def eraseIf (p : Nat → Bool) : Ptr → Heap → Out Heap
  | .insn x, h => if p x then eraseInsn h x else .ok h
  | _, _ => .ub

theorem eraseInsn_list {h : Heap} {hd : Ptr} {A B : List Ptr} {x : Nat} (l : IsList h hd (A ++ .insn x :: B)) : ∃ h', eraseInsn h x = .ok h' ∧ IsList h' hd (A ++ B) := by
  obtain ⟨h1, k1, k2, _, _⟩ := del_list l
  refine ⟨free h1 (.insn x), by unfold eraseInsn; rw [k1, Out.ok_bind], ?_⟩
  have e' := (List.perm_middle (l₁ := hd :: A) (l₂ := B) (a := Ptr.insn x))
  have hd' := (List.nodup_cons.1 (e'.nodup_iff.1 l.nodup)).1
  exact k2.frame (S := [.insn x]) (fun q hq => ⟨rfl, rfl, set_ne (fun e => hq (by rw [e]; exact List.mem_cons_self ..))⟩) (fun p hp hm => hd' (by rw [← List.mem_singleton.1 hm]; exact hp))

/-- A list in memory is one sequence. -/
theorem list_unique {h : Heap} {hd : Ptr} {xs ys : List Ptr} (l : IsList h hd xs) (m : IsList h hd ys) : xs = ys := by
  have go : ∀ (xs ys C : List Ptr), IsList h hd (C ++ xs) → IsList h hd (C ++ ys) → xs = ys := by
    intro xs
    induction xs with
    | nil =>
      intro ys C l m
      cases ys with
      | nil => rfl
      | cons y ys =>
        have e := (list_next l).1.symm.trans (list_next m).1
        exact ((List.nodup_cons.1 m.nodup).1 (by rw [show hd = y from e]; simp)).elim
    | cons x xs ih =>
      intro ys C l m
      have e := (list_next l).1.symm.trans (list_next m).1
      cases ys with
      | nil => exact ((List.nodup_cons.1 l.nodup).1 (by rw [show hd = x from e.symm]; simp)).elim
      | cons y ys =>
        have e : x = y := e
        subst e
        rw [ih ys (C ++ [x]) (by rw [List.append_assoc]; exact l) (by rw [List.append_assoc]; exact m)]
  exact go xs ys [] l m

/-- **C72**, erasing in a safe loop leaves the other instructions, in order. -/
theorem C72_erasing {h : Heap} {f : Fn} (H : Holds h f) {b : Nat} (hb : b ∈ f.allBbs) (p : Nat → Bool) {k : Nat} (hk : (f.body b).length < k) :
    ∃ h', forEachSafe id (.head b) (eraseIf p) k h = .ok h' ∧ IsList h' (.head b) (((f.body b).filter fun x => !p x).map .insn) := by
  have nd : (f.body b).Nodup := (List.pairwise_map.1 (List.nodup_cons.1 (H b hb).nodup).2).imp fun h e => h (by rw [e])
  let step : Ptr → List Nat → Out (List Nat) := fun q t =>
    match q with
    | .insn x => .ok (if p x then t.erase x else t)
    | _ => .ub
  have key := C72_safe (σ := Heap) (τ := List Nat) id (.head b) (eraseIf p) step (fun h t => IsList h (.head b) (t.map .insn))
    (fun C x R s t hl hr => by
      have e := list_unique hl hr
      obtain ⟨C', D, e1, e2, e3⟩ := List.map_eq_append_iff.1 e.symm
      obtain ⟨y, R', e4, e5, e6⟩ := List.map_eq_cons_iff.1 e3
      subst e5
      show Sim _ (if p y then eraseInsn s y else .ok s) (Out.ok (if p y then t.erase y else t))
      cases hp : p y with
      | false => exact ⟨hr, C ++ [.insn y], by rw [List.append_assoc]; exact hl⟩
      | true =>
        obtain ⟨h', k1, k2⟩ := eraseInsn_list (h := s) hl
        rw [if_pos rfl, if_pos rfl, k1]
        have hy : y ∉ C' := fun hm => by
          have e' := (List.perm_middle (l₁ := Ptr.head b :: C) (l₂ := R) (a := Ptr.insn y))
          exact (List.nodup_cons.1 (e'.nodup_iff.1 hl.nodup)).1 (by rw [← e2]; exact List.mem_cons_of_mem _ (List.mem_append_left _ (mem_nodes.2 hm)))
        refine ⟨?_, C, k2⟩
        rw [e1, e4, erase_split hy, List.map_append, e2, e6]
        exact k2) (s := h) (t := f.body b) (H b hb) (H b hb) (k := k) (by rwa [List.length_map])
  have fold : ∀ (l C : List Nat), (C ++ l).Nodup → (l.map Ptr.insn).foldlM (fun t x => step x t) (C ++ l) = .ok (C ++ l.filter fun x => !p x) := by
    intro l
    induction l with
    | nil => intro C _; rfl
    | cons x l ih =>
      intro C hn
      rw [List.map_cons, List.foldlM_cons]
      show (Out.ok (if p x then (C ++ x :: l).erase x else C ++ x :: l) >>= _) = _
      have hx : x ∉ C := fun hm => (List.nodup_append.1 hn).2.2 x hm x (List.mem_cons_self ..) rfl
      rw [Out.ok_bind]
      cases hp : p x with
      | true =>
        rw [if_pos rfl, erase_split hx, ih C (hn.sublist (List.Sublist.append_left (List.sublist_cons_self ..) _)), List.filter_cons_of_neg (by simp [hp])]
      | false =>
        have := ih (C ++ [x]) (by rw [List.append_assoc]; exact hn)
        rw [List.append_assoc, List.append_assoc] at this
        rw [if_neg (by simp), List.filter_cons_of_pos (by simp [hp])]
        exact this
  rw [show f.body b = [] ++ f.body b from rfl] at nd
  have e := fold (f.body b) [] nd
  rw [List.nil_append, List.nil_append] at e
  rw [e] at key
  cases hf : forEachSafe id (.head b) (eraseIf p) k h with
  | ok s => rw [hf] at key; exact ⟨s, rfl, key⟩
  | err => rw [hf] at key; exact key.elim
  | crit => rw [hf] at key; exact key.elim
  | ub => rw [hf] at key; exact key.elim

/-- **C72**, why the safe loop is needed: the plain loop reads the node that has just been freed. -/
theorem C72_plain_erasing {h : Heap} {f : Fn} (H : Holds h f) {b : Nat} (hb : b ∈ f.allBbs) (p : Nat → Bool) (hp : ∃ x ∈ f.body b, p x = true) (k : Nat) :
    forEach id (.head b) (eraseIf p) k h = .ub := by
  have go : ∀ (R : List Nat) (C : List Ptr) (k : Nat) (h : Heap), IsList h (.head b) (C ++ R.map .insn) → (∃ x ∈ R, p x = true) → each id (.head b) (eraseIf p) k (headOr (.head b) (R.map .insn)) h = .ub := by
    intro R
    induction R with
    | nil => intro C k h _ ⟨_, hx, _⟩; cases hx
    | cons x R ih =>
      intro C k h hl hp
      cases k with
      | zero => rfl
      | succ k =>
        rw [each, List.map_cons, headOr, if_neg (by simp)]
        show ((if p x then eraseInsn h x else .ok h) >>= _) = _
        cases hx : p x with
        | true =>
          obtain ⟨h1, k1, _⟩ := del_list (A := C) (B := R.map .insn) (e := .insn x) hl
          rw [if_pos rfl]
          unfold eraseInsn
          rw [k1, Out.ok_bind, Out.ok_bind]
          unfold rdNext
          rw [if_neg (by show ¬ set h1.live (.insn x) false (.insn x) = true; rw [set_eq rfl]; simp)]
          rfl
        | false =>
          have n := list_next (A := C ++ [.insn x]) (B := R.map .insn) (by rw [List.append_assoc]; exact hl)
          rw [lastOr_last] at n
          rw [if_neg (by simp), Out.ok_bind]
          unfold rdNext
          rw [if_pos (show (id h).live (.insn x) = true from n.2), Out.ok_bind, show (id h).next (.insn x) = _ from n.1]
          obtain ⟨y, hy, hy'⟩ := hp
          refine ih (C ++ [.insn x]) k h (by rw [List.append_assoc]; exact hl) ⟨y, ?_, hy'⟩
          rcases List.mem_cons.1 hy with e | e
          · rw [e, hx] at hy'; cases hy'
          · exact e
  have n := list_next (A := []) (B := (f.body b).map .insn) (H b hb)
  unfold forEach rdNext
  rw [if_pos (show (id h).live (.head b) = true from n.2), Out.ok_bind, show (id h).next (.head b) = _ from n.1]
  exact go (f.body b) [] k h (H b hb) hp

/-- The body of a loop that splits the block behind the instruction `x`, as the loop of `bpf_ir_handle_ecalls` does if the instruction behind the call is a load to be redirected
(core/passes/ecall.c:122-124, 169-180); other instructions are left alone. -/
def splitBehind (x b n j : Nat) : Ptr → Heap → Out Heap
  | .insn y, h => if y = x then splitAt h x b n j .back else .ok h
  | _, _ => .ub

/-- **C72 does not reach this far**: what is done with a node must leave the nodes behind it in the list.  If it splits the block, the loop, safe or not, runs into the list of the new block, whose head
it takes for an instruction. -/
theorem C72_violated_split {h : Heap} {f : Fn} (ht : Tidy f) (H : Holds h f) {x : Nat} (hb : f.parent x ∈ f.allBbs) (hx : x ∈ f.body (f.parent x)) (hn : (Edit.nextInsn f x).isSome) {j : Nat}
    (hj : (f.body (f.parent x)).length < j) (k : Nat) : forEachSafe id (.head (f.parent x)) (splitBehind x (f.parent x) (freshBb f) j) k h = .ub := by
  obtain ⟨A, B, e1, e2, e3, e4⟩ := take_drop (f.body (f.parent x)) x hx
  have ne : f.parent x ≠ freshBb f := fun e => fresh_not_mem f (by rw [← e]; exact hb)
  -- the list of the new block, up to its head
  have tail : ∀ (R : List Nat) (C : List Ptr) (k : Nat) (q : Ptr) (h : Heap), IsList h (.head (freshBb f)) (C ++ R.map .insn) → x ∉ R → (R ≠ [] → q = headOr (.head (freshBb f)) (R.tail.map .insn)) →
      eachSafe id (.head (f.parent x)) (splitBehind x (f.parent x) (freshBb f) j) k (headOr (.head (freshBb f)) (R.map .insn)) q h = .ub := by
    intro R
    induction R with
    | nil =>
      intro C k q h _ _ _
      cases k with
      | zero => rfl
      | succ k =>
        rw [eachSafe, List.map_nil, headOr, if_neg (by simpa using fun e => ne e.symm)]
        rfl
    | cons y R ih =>
      intro C k q h hl hx hq
      cases k with
      | zero => rfl
      | succ k =>
        rw [eachSafe, List.map_cons, headOr, if_neg (by simp)]
        show ((if y = x then _ else Out.ok h) >>= _) = _
        rw [if_neg (fun e => hx (by rw [e]; exact List.mem_cons_self ..)), Out.ok_bind, hq (by simp), List.tail_cons]
        have hl' : IsList h (.head (freshBb f)) ((C ++ [.insn y]) ++ R.map .insn) := by rw [List.append_assoc]; exact hl
        cases R with
        | nil =>
          unfold rdNext
          rw [List.map_nil, headOr, if_pos (show (id h).live _ = true from hl.live _ (List.mem_cons_self ..)), Out.ok_bind]
          exact ih _ k _ h hl' (fun h => by cases h) (fun h => absurd rfl h)
        | cons z R =>
          have m := list_next (A := (C ++ [.insn y]) ++ [.insn z]) (B := R.map .insn) (by rw [List.append_assoc]; exact hl')
          rw [lastOr_last] at m
          unfold rdNext
          rw [List.map_cons, headOr, if_pos (show (id h).live _ = true from m.2), Out.ok_bind, show (id h).next _ = _ from m.1]
          exact ih _ k _ h hl' (fun h => hx (List.mem_cons_of_mem _ h)) (fun _ => rfl)
  cases B with
  | nil =>
    unfold Edit.nextInsn at hn
    rw [e4] at hn
    cases hn
  | cons z B =>
    -- the instructions in front of `x`
    have front : ∀ (R : List Nat) (C : List Ptr) (k : Nat) (q : Ptr), IsList h (.head (f.parent x)) (C ++ (R ++ x :: z :: B).map .insn) → x ∉ R → q = headOr (.head (f.parent x)) ((R ++ x :: z :: B).tail.map .insn) →
        eachSafe id (.head (f.parent x)) (splitBehind x (f.parent x) (freshBb f) j) k (headOr (.head (f.parent x)) ((R ++ x :: z :: B).map .insn)) q h = .ub := by
      intro R
      induction R with
      | nil =>
        intro C k q hl _ hq
        cases k with
        | zero => rfl
        | succ k =>
          have sp := C72_split ht H hb hx .back (k := j) hj
          have es : split f x .back = .ok { splitEdges (newBb f) (f.parent x) (freshBb f) with
              body := upd (upd (splitEdges (newBb f) (f.parent x) (freshBb f)).body (f.parent x) (A ++ [x])) (freshBb f) (z :: B)
              parent := fun y => if y ∈ z :: B then freshBb f else (splitEdges (newBb f) (f.parent x) (freshBb f)).parent y } := by
            have body : (splitEdges (newBb f) (f.parent x) (freshBb f)).body (f.parent x) = f.body (f.parent x) := by
              rw [(splitEdges_body ..).1]; exact upd_ne _ _ ne
            unfold split
            dsimp only
            rw [body, e3, e4, List.tail_cons, if_neg (by simp)]
          rw [es] at sp
          obtain ⟨h', s1, s2⟩ := sp
          have ln := s2 (freshBb f) (by rw [show _ = (splitEdges (newBb f) (f.parent x) (freshBb f)).allBbs from rfl, (splitEdges_body ..).2]; exact List.mem_append_right _ (List.mem_cons_self ..))
          dsimp only at ln
          rw [upd_same] at ln
          rw [eachSafe, List.nil_append, List.map_cons, headOr, if_neg (by simp)]
          show ((if x = x then splitAt h x (f.parent x) (freshBb f) j .back else Out.ok h) >>= _) = _
          rw [if_pos rfl, s1, Out.ok_bind, hq, List.nil_append, List.tail_cons, List.map_cons, headOr]
          have m := list_next (A := [.insn z]) (B := B.map .insn) (by exact ln)
          unfold rdNext
          rw [if_pos (show (id h').live (.insn z) = true from m.2), Out.ok_bind, show (id h').next (.insn z) = _ from m.1]
          have hxB : x ∉ z :: B := fun hm => by
            have := ht.nodup _ hb
            rw [e1] at this
            exact (List.nodup_cons.1 (List.nodup_append.1 this).2.1).1 hm
          exact tail (z :: B) [] k _ h' ln hxB (fun _ => rfl)
      | cons y R ih =>
        intro C k q hl hx' hq
        cases k with
        | zero => rfl
        | succ k =>
          rw [eachSafe, List.cons_append, List.map_cons, headOr, if_neg (by simp)]
          show ((if y = x then _ else Out.ok h) >>= _) = _
          rw [if_neg (fun e => hx' (by rw [e]; exact List.mem_cons_self ..)), Out.ok_bind, hq, List.cons_append, List.tail_cons]
          have hl' : IsList h (.head (f.parent x)) ((C ++ [.insn y]) ++ (R ++ x :: z :: B).map .insn) := by rw [List.append_assoc]; exact hl
          obtain ⟨w, W, hw⟩ : ∃ w W, R ++ x :: z :: B = w :: W := by
            cases R with
            | nil => exact ⟨_, _, rfl⟩
            | cons w W => exact ⟨_, _, rfl⟩
          have m := list_next (A := (C ++ [.insn y]) ++ [.insn w]) (B := W.map .insn) (by rw [List.append_assoc]; rw [hw] at hl'; exact hl')
          rw [lastOr_last] at m
          unfold rdNext
          have hh : headOr (.head (f.parent x)) ((R ++ x :: z :: B).map .insn) = .insn w := by rw [hw]; rfl
          rw [show (id h).live (headOr (.head (f.parent x)) ((R ++ x :: z :: B).map .insn)) = true by rw [hh]; exact m.2, if_pos rfl, Out.ok_bind]
          refine ih (C ++ [.insn y]) k _ hl' (fun h => hx' (List.mem_cons_of_mem _ h)) ?_
          rw [hh, hw, List.tail_cons]
          exact m.1
    have hl := H _ hb
    have n := list_next (A := []) (B := (f.body (f.parent x)).map .insn) hl
    obtain ⟨w, W, hw⟩ : ∃ w W, f.body (f.parent x) = w :: W := by
      rw [e1]
      cases A with
      | nil => exact ⟨_, _, rfl⟩
      | cons w W => exact ⟨_, _, rfl⟩
    have m := list_next (A := [.insn w]) (B := W.map .insn) (by rw [hw] at hl; exact hl)
    unfold forEachSafe rdNext
    have hh : headOr (.head (f.parent x)) ((f.body (f.parent x)).map .insn) = .insn w := by rw [hw]; rfl
    rw [if_pos (show (id h).live (.head (f.parent x)) = true from n.2), Out.ok_bind, show (id h).next (.head (f.parent x)) = _ from n.1,
      show (id h).live (headOr (.head (f.parent x)) ((f.body (f.parent x)).map .insn)) = true by rw [hh]; exact m.2, if_pos rfl, Out.ok_bind]
    rw [e1] at hl hh ⊢
    refine front A [] k _ hl e2 ?_
    rw [hh, ← e1, hw, List.tail_cons]
    exact m.1

/-! ## A block of three instructions -/

/-- One block with the instructions 0, 1 and 2, of which the first is a phi and the last a jump. -/
def threeFn : Fn :=
  { insn := fun x => { (default : Insn) with op := if x = 0 then .phi else if x = 2 then .ret else .add }
    users := fun _ => []
    next := 4
    parent := fun _ => 0
    body := fun b => if b = 0 then [0, 1, 2] else []
    preds := fun _ => []
    succs := fun _ => []
    allBbs := [0]
    entry := 0
    sp := 3
    args := [] }

def threeHeap : Heap :=
  { next := fun p => match p with | .head 0 => .insn 0 | .insn 0 => .insn 1 | .insn 1 => .insn 2 | .insn 2 => .head 0 | _ => .poison1
    prev := fun p => match p with | .head 0 => .insn 2 | .insn 0 => .head 0 | .insn 1 => .insn 0 | .insn 2 => .insn 1 | _ => .poison2
    live := fun p => p = .head 0 ∨ p = .insn 0 ∨ p = .insn 1 ∨ p = .insn 2 }

theorem three_holds : Holds threeHeap threeFn := by
  intro b hb
  have hb : b = 0 := by simpa [threeFn] using hb
  subst hb
  exact ⟨⟨⟨rfl, rfl⟩, ⟨rfl, rfl⟩, ⟨rfl, rfl⟩, rfl, rfl⟩, by decide, by decide⟩

theorem three_live {x : Nat} (h : Live threeFn x) : x < 4 := by
  rcases h with h | h | ⟨b, hb, h⟩
  · rw [h]; decide
  · cases h
  · have hb : b = 0 := by simpa [threeFn] using hb
    subst hb
    simp [threeFn] at h
    omega

theorem three_tidy : Tidy threeFn where
  lt := fun x h => three_live h
  closed := fun x y _ h => absurd h (by
    have h1 : (threeFn.insn x).vals = [] := rfl
    have h2 : (threeFn.insn x).phi = [] := rfl
    have h3 : (threeFn.insn x).addr = .undef := rfl
    simp [refs, h1, h2, h3])
  parent := fun b hb x hx => by
    have hb : b = 0 := by simpa [threeFn] using hb
    rw [hb]; rfl
  nodup := fun b hb => by
    have hb : b = 0 := by simpa [threeFn] using hb
    rw [hb]; decide
  fixed := fun b hb x hx => by
    have hb : b = 0 := by simpa [threeFn] using hb
    subst hb
    simp [threeFn] at hx ⊢
    omega

/-- Inserting behind the phi, splitting, erasing and counting in it. -/
example : (∃ h', insertAtBb (fun y => ((alloc threeFn default 0).insn y).op) (malloc threeHeap (.insn 4)) 4 0 9 .frontAfterPhi = .ok h' ∧ Holds h' (createBb threeFn default 0 .frontAfterPhi)) ∧
    (createBb threeFn default 0 .frontAfterPhi).body 0 = [0, 4, 1, 2] := ⟨C72_create three_tidy three_holds (by decide) default .frontAfterPhi (by decide), by decide⟩

example : (∃ h', forEachSafe id (.head 0) (eraseIf (· == 1)) 9 threeHeap = .ok h' ∧ IsList h' (.head 0) [.insn 0, .insn 2]) ∧ forEach id (.head 0) (eraseIf (· == 1)) 9 threeHeap = .ub :=
  ⟨C72_erasing three_holds (b := 0) (by decide) (· == 1) (by decide), C72_plain_erasing three_holds (b := 0) (by decide) (· == 1) ⟨1, by decide, rfl⟩ 9⟩

example : bbLen threeHeap 0 9 = .ok 3 ∧ forEachSafe id (.head 0) (splitBehind 0 0 1 9) 99 threeHeap = .ub :=
  ⟨C72_length three_holds (b := 0) (by decide) (by decide), C72_violated_split three_tidy three_holds (x := 0) (by decide) (by decide) (by decide) (by decide) 99⟩

end Verif.Links
