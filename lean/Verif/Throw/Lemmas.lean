import Verif.Throw.Sim
/-!
# The two throw translations as replacements of throws by returns
-/
namespace Verif.Throw
open Verif Verif.IR Verif.Edit Verif.Guard Verif.Count

/-- What the pass gets: a function in good shape, no jump leads to the entry, `rs` lists the connected blocks once, a block
with only one block before it behind that one, and control does not come from elsewhere. -/
structure Input (rs : List Nat) (f : Fn) : Prop where
  shape : Shape f
  entry : f.preds f.entry = []
  nodup : rs.Nodup
  conn : ∀ b, b ∈ rs ↔ Conn f b
  preds : ∀ b ∈ rs, ∀ p ∈ f.preds b, p ∈ rs
  sorted : Sorted f rs

theorem mem_throws {rs : List Nat} {f : Fn} {x : Nat} : x ∈ throws rs f ↔ ∃ b ∈ rs, (f.body b).getLast? = some x ∧ (f.insn x).op = .throw := by
  simp only [throws, List.mem_filterMap]
  constructor
  · rintro ⟨b, hb, h⟩
    cases hl : (f.body b).getLast? with
    | none => rw [hl] at h; cases h
    | some y =>
      rw [hl] at h
      dsimp only at h
      split at h
      · rename_i ho
        cases h
        exact ⟨b, hb, hl, ho⟩
      · cases h
  · rintro ⟨b, hb, h1, h2⟩
    exact ⟨b, hb, by rw [h1]; simp [h2]⟩

theorem last_of_throw {f : Fn} (hs : Shape f) {b x : Nat} (hb : b ∈ f.allBbs) (hx : x ∈ f.body b) (ho : (f.insn x).op = .throw) : ∃ A, f.body b = A ++ [x] := by
  obtain ⟨A, B, h⟩ := List.append_of_mem hx
  have := hs.last b hb A x B h (by rw [ho]; rfl)
  exact ⟨A, by rw [h, this]⟩

theorem mem_of_last {l : List Nat} {x : Nat} (h : l.getLast? = some x) : ∃ A, l = A ++ [x] := by
  rcases List.eq_nil_or_concat l with e | ⟨A, y, e⟩
  · subst e; cases h
  · rw [List.concat_eq_append] at e
    subst e
    simp at h
    exact ⟨A, by rw [h]⟩

variable {rs : List Nat} {f g : Fn} {msg : Bool}

theorem Input.blocks (hi : Input rs f) {b : Nat} (hb : b ∈ rs) : b ∈ f.allBbs := Conn.mem hi.shape ((hi.conn b).1 hb)

theorem throw_at (hi : Input rs f) {x : Nat} (hx : x ∈ throws rs f) : f.parent x ∈ rs ∧ (f.insn x).op = .throw ∧ ∃ A, f.body (f.parent x) = A ++ [x] := by
  obtain ⟨b, hb, h1, h2⟩ := mem_throws.1 hx
  obtain ⟨A, hA⟩ := mem_of_last h1
  have hp : f.parent x = b := hi.shape.tidy.parent b (hi.blocks hb) x (by rw [hA]; simp)
  rw [hp]
  exact ⟨hb, h2, A, hA⟩

theorem throws_nodup (hi : Input rs f) : (throws rs f).Nodup := by
  have key : ∀ l : List Nat, l.Nodup → (∀ b ∈ l, b ∈ rs) → (throws l f).Nodup := by
    intro l
    induction l with
    | nil => intro _ _; simp [throws]
    | cons b l ih =>
      intro hn hl
      have hih := ih (List.nodup_cons.1 hn).2 fun c hc => hl c (List.mem_cons_of_mem _ hc)
      simp only [throws] at hih ⊢
      rw [List.filterMap_cons]
      split
      · exact hih
      · rename_i x hx
        refine List.nodup_cons.2 ⟨fun hm => ?_, hih⟩
        obtain ⟨c, hc, h1, h2⟩ := mem_throws.1 hm
        have hbx : (f.body b).getLast? = some x := by
          cases hl : (f.body b).getLast? with
          | none => rw [hl] at hx; cases hx
          | some y =>
            rw [hl] at hx; dsimp only at hx
            split at hx
            · cases hx; rfl
            · cases hx
        obtain ⟨A, hA⟩ := mem_of_last hbx
        obtain ⟨B, hB⟩ := mem_of_last h1
        have e1 := hi.shape.tidy.parent b (hi.blocks (hl b (List.mem_cons_self ..))) x (by rw [hA]; simp)
        have e2 := hi.shape.tidy.parent c (hi.blocks (hl c (List.mem_cons_of_mem _ hc))) x (by rw [hB]; simp)
        rw [e1] at e2
        exact (List.nodup_cons.1 hn).1 (e2 ▸ hc)
  exact key rs hi.nodup fun _ h => h

theorem exit_ops {L N : List Nat} (E : Exit msg L g N) : ∀ y ∈ N, (g.insn y).op ≠ .phi := by
  obtain ⟨D, M, rfl, hD, hM⟩ := E
  intro y hy
  rcases List.mem_append.1 hy with h | h
  · have : g.insn y ∈ L.map discard := by rw [← hD]; exact List.mem_map_of_mem h
    obtain ⟨q, _, hq⟩ := List.mem_map.1 this
    rw [← hq]; simp [discard, mkCall]
  · cases msg with
    | false =>
      have : M = [] := by simpa using hM
      rw [this] at h; cases h
    | true =>
      simp only [if_true] at hM
      obtain ⟨a, s1, s2, e, c, rfl, m⟩ := hM
      simp only [List.mem_cons, List.not_mem_nil, or_false] at h
      rcases h with rfl | rfl | rfl | rfl | rfl
      · rw [m.alloc]; simp [mkAllocarray]
      · rw [m.st1]; simp [mkStoreraw]
      · rw [m.st2]; simp [mkStoreraw]
      · rw [m.elem]; simp [mkGetelemptr]
      · rw [m.call]; simp [mkCall]

theorem throwAt_of (hi : Input rs f) {x : Nat} (hx : x ∈ throws rs f) : ThrowAt f x := by
  obtain ⟨h1, h2, A, hA⟩ := throw_at hi hx
  have hb := hi.blocks h1
  refine ⟨⟨A, hA, ?_, fun y hy => lt_of_body hi.shape.tidy hb (by rw [hA]; simp [hy])⟩, lt_of_body hi.shape.tidy hb (by rw [hA]; simp), by rw [h2]; decide⟩
  have := hi.shape.tidy.nodup _ hb
  rw [hA] at this
  exact fun hm => (List.nodup_append.1 this).2.2 x hm x (by simp) rfl

theorem throws_inj (hi : Input rs f) {x y : Nat} (hx : x ∈ throws rs f) (hy : y ∈ throws rs f) (h : f.parent x = f.parent y) : x = y := by
  obtain ⟨_, _, A, hA⟩ := throw_at hi hx
  obtain ⟨_, _, B, hB⟩ := throw_at hi hy
  rw [h, hB] at hA
  have := (List.append_inj' hA rfl).2
  simp at this
  exact this.symm

/-- The pass succeeds, and does what it should. -/
theorem df_spec (hi : Input rs f) (hsu : ∀ b ∈ rs, supported f b = true) :
    ∃ s g, solve rs f (rounds rs f) start = some s ∧ translateDf msg rs f = .ok g ∧ Done msg s.out f (throws rs f) g := by
  obtain ⟨s, hs⟩ := solve_ends rs f
  obtain ⟨g, hg, hd⟩ := transAll_spec (msg := msg) (out := s.out) (throws rs f) (throws_nodup hi) (fun x hx => throwAt_of hi hx) (fun x hx y hy => throws_inj hi hx hy)
  refine ⟨s, g, hs, ?_, hd⟩
  unfold translateDf
  rw [if_pos (List.all_eq_true.2 hsu), if_pos (List.all_eq_true.2 fun b hb => List.all_eq_true.2 fun p hp => decide_eq_true (hi.preds b hb p hp)), hs]
  exact hg

theorem df_inv (h : translateDf msg rs f = .ok g) : ∀ b ∈ rs, supported f b = true := by
  unfold translateDf at h
  split at h
  · rename_i h1; exact List.all_eq_true.1 h1
  · cases h

theorem done_swapped {out : Nat → List Nat} (hi : Input rs f) (D : Done msg out f (throws rs f) g) :
    ∃ N, Swapped f g (throws rs f) N (const32 0) ∧ ∀ x ∈ throws rs f, (∀ y ∈ N x, f.next ≤ y) ∧ Exit msg (out (f.parent x)) g (N x) := by
  have hch : ∀ x, ∃ Nx : List Nat, x ∈ throws rs f → (∃ A, f.body (f.parent x) = A ++ [x] ∧ g.body (f.parent x) = A ++ Nx ++ [x]) ∧ (∀ y ∈ Nx, f.next ≤ y) ∧ Exit msg (out (f.parent x)) g Nx := by
    intro x
    by_cases hx : x ∈ throws rs f
    · obtain ⟨A, Nx, h1, h2, h3, _, h4⟩ := D.site x hx
      exact ⟨Nx, fun _ => ⟨⟨A, h1, h2⟩, h3, h4⟩⟩
    · exact ⟨[], fun h => absurd h hx⟩
  obtain ⟨N, hN⟩ := Classical.axiomOfChoice hch
  refine ⟨N, ⟨fun y hy hyT => ?_, D.ret, fun c _ hc => D.other c hc, fun x hx => ?_, fun x hx => exit_ops (hN x hx).2.2, fun b hb x hx ho => ?_, D.succs, D.entry⟩,
    fun x hx => (hN x hx).2⟩
  · obtain ⟨b, hb, hyb⟩ := hy
    exact D.insn y (lt_of_body hi.shape.tidy hb hyb) hyT
  · obtain ⟨h1, h2, _⟩ := throw_at hi hx
    exact ⟨h2, hi.blocks h1, (hN x hx).1⟩
  · obtain ⟨A, hA⟩ := last_of_throw hi.shape (Conn.mem hi.shape hb) hx ho
    exact mem_throws.2 ⟨b, (hi.conn b).2 hb, by rw [hA]; simp, ho⟩

theorem Kept.inBody (hi : Input rs f) {q b : Nat} (h : Kept f q b) : b ∈ rs → Reserves f q := by
  induction h with
  | here h1 h2 _ => intro hb; exact ⟨⟨_, hi.blocks hb, h1⟩, h2⟩
  | @join b h1 _ _ ih =>
    intro hb
    obtain ⟨p, ps, e⟩ := List.exists_cons_of_ne_nil h1
    exact ih p (by rw [e]; simp) (hi.preds b hb p (by rw [e]; simp))

theorem out_kept (hi : Input rs f) {n : Nat} {s : Sets} (h : solve rs f n start = some s) {b q : Nat} (hb : b ∈ rs) : q ∈ s.out b ↔ Kept f q b := by
  refine ⟨(solve_inv h).kept b q, fun hk => ?_⟩
  exact solve_kept hi.nodup (fun b hb => ⟨(hi.shape.graph.preds b (hi.blocks hb)).1, hi.preds b hb⟩)
    (fun a ha b hb x hxa hxb => by rw [← hi.shape.tidy.parent a (hi.blocks ha) x hxa, hi.shape.tidy.parent b (hi.blocks hb) x hxb]) hi.sorted h hk hb

/-- The execution in front of a throw. -/
theorem at_throw (hi : Input rs f) {W : World} {j : Nat} {σ τ : St} {b x : Nat} {r : List Nat} (hr : runFn W f j σ = .running b (x :: r) τ) (ho : (f.insn x).op = .throw) :
    b ∈ rs ∧ r = [] ∧ x ∈ throws rs f ∧ f.parent x = b ∧ ∃ w, Ways f (b :: w) ∧
      ∀ q, isReserve (f.insn q) = true → held f q (path W f j f.entry (f.body f.entry) σ) = heldWay f q (b :: w) := by
  obtain ⟨w, A, hw, hA, hh⟩ := path_onWay hi.shape j (onWay_start f) hr
  have hc : Conn f b := hw.conn b (List.mem_cons_self ..)
  have hbm := Conn.mem hi.shape hc
  have hx : x ∈ f.body b := by rw [hA]; simp
  have hre := hi.shape.last b hbm A x r hA (by rw [ho]; rfl)
  subst hre
  refine ⟨(hi.conn b).2 hc, rfl, mem_throws.2 ⟨b, (hi.conn b).2 hc, by rw [hA]; simp, ho⟩, hi.shape.tidy.parent b hbm x hx, w, hw, fun q hq => ?_⟩
  have := hh q hq
  rw [List.nil_append] at this
  rw [this, heldWay_cons, hA, List.foldl_append]
  exact (fold_idle (fun y hy => by
    have : y = x := by simpa using hy
    rw [this]; exact call_not hq ho (by decide))).symm

theorem simple_swapped (hs : Shape f) (hR : ∀ b ∈ rs, b ∈ f.allBbs) (hC : ∀ b, Conn f b → b ∈ rs) : Swapped f (translateThrow rs f) (throws rs f) (fun _ => []) (const32 1) := by
  have hmem : ∀ {x}, x ∈ throws rs f ↔ x ∈ rs.flatMap f.body ∧ (f.insn x).op = .throw := by
    intro x
    rw [mem_throws, List.mem_flatMap]
    constructor
    · rintro ⟨b, hb, h1, h2⟩
      obtain ⟨A, hA⟩ := mem_of_last h1
      exact ⟨⟨b, hb, by rw [hA]; simp⟩, h2⟩
    · rintro ⟨⟨b, hb, h1⟩, h2⟩
      obtain ⟨A, hA⟩ := last_of_throw hs (hR b hb) h1 h2
      exact ⟨b, hb, by rw [hA]; simp, h2⟩
  refine ⟨fun y _ hy => ?_, fun x hx => ?_, fun _ _ _ => rfl, fun x hx => ?_, by simp, fun b hb x hx ho => ?_, rfl, rfl⟩
  · simp only [translateThrow]
    rw [if_neg (fun h => hy (hmem.2 h))]
  · simp only [translateThrow]
    rw [if_pos (hmem.1 hx)]
    exact ⟨rfl, rfl⟩
  · obtain ⟨b, hb, h1, h2⟩ := mem_throws.1 hx
    obtain ⟨A, hA⟩ := mem_of_last h1
    have hp : f.parent x = b := hs.tidy.parent b (hR b hb) x (by rw [hA]; simp)
    rw [hp]
    exact ⟨h2, hR b hb, A, hA, by simpa [translateThrow] using hA⟩
  · exact hmem.2 ⟨List.mem_flatMap.2 ⟨b, hC b hb, hx⟩, ho⟩

end Verif.Throw
