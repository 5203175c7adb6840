import Verif.Edit.SplitSim
import Verif.Lift.Props
/-!
# C21, C22, C23, C46: editing the IR
-/
namespace Verif.Edit
open Verif Verif.IR
set_option linter.unusedSimpArgs false

/-- One call of the editing interface on existing instructions, blocks and values. -/
inductive Edit : Fn → Fn → Prop
  | createBb {f : Fn} {i : Insn} {b : Nat} {pos : Pos} : b ∈ f.allBbs → (∀ y, 0 < refs i y → Live f y) → Edit f (createBb f i b pos)
  | createAt {f g : Fn} {i : Insn} {a : Nat} {pos : Pos} : InBody f a → (∀ y, 0 < refs i y → Live f y) → createAt f i a pos = .ok g → Edit f g
  | phiAdd {f : Fn} {x b : Nat} {v : Val} : Live f x → (f.insn x).op = .phi → LiveVal f v → Edit f (phiAddOperand f x b v)
  | callArg {f g : Fn} {x : Nat} {v : Val} : Live f x → LiveVal f v → addCallArg f x v = .ok g → Edit f g
  | change {f g : Fn} {x : Nat} {p : Ptr} {v : Val} : Live f x → LiveVal f v → changeValue f x p v = .ok g → Edit f g
  | replaceAll {f : Fn} {x : Nat} {v : Val} : Live f x → LiveVal f v → v ≠ .insn x → Edit f (replaceAll f x v)
  | replaceExcept {f : Fn} {x e : Nat} {v : Val} : Live f x → LiveVal f v → v ≠ .insn x → Edit f (replaceExcept f x v e)
  | erase {f g : Fn} {x : Nat} : InBody f x → erase f x = .ok g → Edit f g
  | newBb {f : Fn} : Edit f (newBb f)
  | connect {f : Fn} {a b : Nat} : a ∈ f.allBbs → b ∈ f.allBbs → Edit f (connect f a b)
  | disconnect {f : Fn} {a b : Nat} : a ∈ f.allBbs → b ∈ f.allBbs → Edit f (disconnect f a b)
  | split {f g : Fn} {x : Nat} {pos : Pos} : InBody f x → split f x pos = .ok g → Edit f g

/-- Any number of calls. -/
inductive Edits : Fn → Fn → Prop
  | refl {f : Fn} : Edits f f
  | step {f g h : Fn} : Edits f g → Edit g h → Edits f h

theorem inBody_parent {f : Fn} {x : Nat} (ht : Tidy f) (h : InBody f x) : f.parent x ∈ f.allBbs ∧ x ∈ f.body (f.parent x) := by
  obtain ⟨b, hb, hx⟩ := h
  have := ht.parent b hb x hx
  rw [this]; exact ⟨hb, hx⟩

theorem refs_live {f : Fn} {i : Insn} (h : ∀ y, 0 < refs i y → Live f y) : ∀ y, .insn y ∈ operands i → Live f y :=
  fun y hy => h y (refs_pos.2 hy)

theorem Added.graph {f g : Fn} {i : Insn} {b : Nat} (h : Added f i b g) (hg : Graph f) : Graph g := by
  refine ⟨?_, ?_, ?_⟩
  · rw [h.allBbs, h.succs, h.preds]; exact hg.sym
  · rw [h.allBbs, h.succs]; exact hg.succs
  · rw [h.allBbs, h.preds]; exact hg.preds

theorem graph_congr {f g : Fn} (ha : g.allBbs = f.allBbs) (hs : g.succs = f.succs) (hp : g.preds = f.preds) (hg : Graph f) : Graph g := by
  refine ⟨?_, ?_, ?_⟩
  · rw [ha, hs, hp]; exact hg.sym
  · rw [ha, hs]; exact hg.succs
  · rw [ha, hp]; exact hg.preds

theorem Edit.good {f g : Fn} (h : Edit f g) (ht : Tidy f) (hu : UsersExact f) (hg : Graph f) : Tidy g ∧ UsersExact g ∧ Graph g := by
  cases h with
  | createBb hb hi =>
    rename_i i b pos
    have h := added_createBb f i b pos
    exact ⟨h.tidy ht hb (refs_live hi), h.exact ht hu hb (refs_live hi), h.graph hg⟩
  | createAt ha hi hc =>
    obtain ⟨h1, h2⟩ := inBody_parent ht ha
    have h := added_createAt hc h2
    exact ⟨h.tidy ht h1 (refs_live hi), h.exact ht hu h1 (refs_live hi), h.graph hg⟩
  | phiAdd hx hop hv =>
    obtain ⟨h1, h2⟩ := phiAdd_ok ht hx hv hop
    refine ⟨h1, h2 hu, ?_⟩
    unfold phiAddOperand
    exact graph_congr (addUser_same ..).allBbs (addUser_same ..).succs (addUser_same ..).preds (graph_congr (f := f) rfl rfl rfl hg)
  | callArg hx hv hc =>
    obtain ⟨h1, h2⟩ := callArg_ok ht hx hv hc
    refine ⟨h1, h2 hu, ?_⟩
    unfold addCallArg at hc
    split at hc
    · cases hc
    · cases hc
      exact graph_congr (addUser_same ..).allBbs (addUser_same ..).succs (addUser_same ..).preds (graph_congr (f := f) rfl rfl rfl hg)
  | change hx hv hc =>
    obtain ⟨h1, h2⟩ := change_ok ht hx hv hc
    refine ⟨h1, h2 hu, ?_⟩
    unfold changeValue at hc
    split at hc
    · cases hc
    · cases hc
      exact graph_congr (addUser_same ..).allBbs (addUser_same ..).succs (addUser_same ..).preds
        (graph_congr (removeUser_same ..).allBbs (removeUser_same ..).succs (removeUser_same ..).preds hg)
  | replaceAll hx hv hr =>
    obtain ⟨h1, h2⟩ := replaceAll_ok ht hx hv hr
    have h := replaceAll_spec (f := f) hr
    exact ⟨h1, h2 hu, graph_congr h.allBbs h.succs h.preds hg⟩
  | replaceExcept hx hv hr =>
    rename_i x e v
    obtain ⟨h1, h2⟩ := replaceExcept_ok (e := e) ht hx hv hr
    have h := (replaceExcept_spec (f := f) (e := e) hr).1
    exact ⟨h1, h2 hu, graph_congr h.allBbs h.succs h.preds hg⟩
  | erase hx he =>
    have hs := (erase_spec he).2.1
    exact ⟨erase_tidy ht (UsersExact.listed hu) hx he, erase_exact ht hu hx he, graph_congr (f := f) hs.allBbs hs.succs hs.preds hg⟩
  | newBb => exact ⟨(sameCode_newBb f).tidy ht, (sameCode_newBb f).exact hu, graph_newBb hg⟩
  | connect ha hb => exact ⟨(sameCode_connect f _ _).tidy ht, (sameCode_connect f _ _).exact hu, graph_connect hg ha hb⟩
  | disconnect ha hb => exact ⟨(sameCode_disconnect f _ _).tidy ht, (sameCode_disconnect f _ _).exact hu, graph_disconnect hg ha hb⟩
  | split hx hs =>
    obtain ⟨h1, h2⟩ := inBody_parent ht hx
    rcases split_spec hg h1 h2 hs with ⟨_, h⟩ | ⟨_, h⟩
    · exact ⟨h.tidy h1 ht, h.exact h1 hu, h.graph hg h1⟩
    · exact ⟨h.tidy h1 ht, h.exact h1 hu, h.graph hg h1⟩

/-- **C21** (from a function whose lists are right, which excludes some lifted ones: see `C21_violated_lift`;
and replacing a value by itself is excluded: see `C21_violated_self`).  After any sequence of edits an
instruction is listed as a user of a value exactly as many times as it refers to it. -/
theorem C21_users_partial {f g : Fn} (h : Edits f g) (ht : Tidy f) (hu : UsersExact f) (hg : Graph f) : UsersExact g := by
  have : Tidy g ∧ UsersExact g ∧ Graph g := by
    induction h with
    | refl => exact ⟨ht, hu, hg⟩
    | step _ h2 ih => exact h2.good ih.1 ih.2.1 ih.2.2
  exact this.2.1

/-- Erased instructions are not referred to any more, and every instruction is in one block only. -/
theorem C21_no_dangling_partial {f g : Fn} (h : Edits f g) (ht : Tidy f) (hu : UsersExact f) (hg : Graph f) : Tidy g := by
  have : Tidy g ∧ UsersExact g ∧ Graph g := by
    induction h with
    | refl => exact ⟨ht, hu, hg⟩
    | step _ h2 ih => exact h2.good ih.1 ih.2.1 ih.2.2
  exact this.1

/-- Edits of the block graph only. -/
inductive GEdit : Fn → Fn → Prop
  | newBb {f : Fn} : GEdit f (newBb f)
  | connect {f : Fn} {a b : Nat} : a ∈ f.allBbs → b ∈ f.allBbs → GEdit f (connect f a b)
  | disconnect {f : Fn} {a b : Nat} : a ∈ f.allBbs → b ∈ f.allBbs → GEdit f (disconnect f a b)
  | split {f g : Fn} {x : Nat} {pos : Pos} : InBody f x → split f x pos = .ok g → GEdit f g
  /-- a split that reports an error has moved the edges already -/
  | splitErr {f : Fn} {x : Nat} {pos : Pos} : InBody f x → split f x pos = .err → GEdit f (splitEdges (newBb f) (f.parent x) (freshBb f))

inductive GEdits : Fn → Fn → Prop
  | refl {f : Fn} : GEdits f f
  | step {f g h : Fn} : GEdits f g → GEdit g h → GEdits f h

theorem GEdit.good {f g : Fn} (h : GEdit f g) (ht : Tidy f) (hg : Graph f) : Tidy g ∧ Graph g := by
  cases h with
  | newBb => exact ⟨(sameCode_newBb f).tidy ht, graph_newBb hg⟩
  | connect ha hb => exact ⟨(sameCode_connect f _ _).tidy ht, graph_connect hg ha hb⟩
  | disconnect ha hb => exact ⟨(sameCode_disconnect f _ _).tidy ht, graph_disconnect hg ha hb⟩
  | split hx hs =>
    obtain ⟨h1, h2⟩ := inBody_parent ht hx
    rcases split_spec hg h1 h2 hs with ⟨_, h⟩ | ⟨_, h⟩
    · exact ⟨h.tidy h1 ht, h.graph hg h1⟩
    · exact ⟨h.tidy h1 ht, h.graph hg h1⟩
  | splitErr hx _ =>
    obtain ⟨h1, _⟩ := inBody_parent ht hx
    have h := splitEdges_spec hg h1
    exact ⟨h.code.tidy ((sameCode_newBb f).tidy ht), graph_splitEdges hg h1 (fresh_not_mem f) h.allBbs h.succs h.preds⟩

/-- **C22.** After any sequence of block creations, connects, disconnects and splits (also splits that
report an error) `b` is a successor of `a` if and only if `a` is a predecessor of `b`; no block is listed twice. -/
theorem C22_symmetry {f g : Fn} (h : GEdits f g) (ht : Tidy f) (hg : Graph f) :
    (∀ a ∈ g.allBbs, ∀ b ∈ g.allBbs, b ∈ g.succs a ↔ a ∈ g.preds b) ∧ ∀ a ∈ g.allBbs, (g.succs a).Nodup ∧ (g.preds a).Nodup := by
  have : Tidy g ∧ Graph g := by
    induction h with
    | refl => exact ⟨ht, hg⟩
    | step _ h2 ih => exact h2.good ih.1 ih.2
  exact ⟨this.2.sym, fun a ha => ⟨(this.2.succs a ha).1, (this.2.preds a ha).1⟩⟩

/-- **C22** for all edits. -/
theorem C22_symmetry_edits {f g : Fn} (h : Edits f g) (ht : Tidy f) (hu : UsersExact f) (hg : Graph f) :
    ∀ a ∈ g.allBbs, ∀ b ∈ g.allBbs, b ∈ g.succs a ↔ a ∈ g.preds b := by
  have : Tidy g ∧ UsersExact g ∧ Graph g := by
    induction h with
    | refl => exact ⟨ht, hu, hg⟩
    | step _ h2 ih => exact h2.good ih.1 ih.2.1 ih.2.2
  exact this.2.2.sym

/-! ## C23 -/

/-- **C23** (when the blocks after the split block have no phis and the moved part does not begin with one).
Splitting a block keeps the instructions executed on every path, and the results. -/
theorem C23_split_partial {W : World} {f g : Fn} {x : Nat} {pos : Pos} (ht : Tidy f) (hg : Graph f) (hw : Wired f) (hx : InBody f x)
    (hent : f.entry ∈ f.allBbs)
    (hs : split f x pos = .ok g)
    (hphi : ∀ y, (y = x ∧ pos = .front) ∨ (pos = .back ∧ nextInsn f x = some y) → (f.insn y).op ≠ .phi)
    (hsucc : ∀ t ∈ f.succs (f.parent x), phisOf f t = []) (σ : St) :
    (∀ k, ∃ m, path W g m g.entry (g.body g.entry) σ = path W f k f.entry (f.body f.entry) σ ∧ SameRes (runFn W f k σ) (runFn W g m σ)) ∧
    (∀ m, ∃ k, path W g m g.entry (g.body g.entry) σ = path W f k f.entry (f.body f.entry) σ ∧ SameRes (runFn W f k σ) (runFn W g m σ)) := by
  obtain ⟨h1, h2⟩ := inBody_parent ht hx
  have key : ∀ hd tl, Split f (f.parent x) (freshBb f) hd tl g → (∀ y, tl.head? = some y → (f.insn y).op ≠ .phi) →
      (∀ k, ∃ m, path W g m g.entry (g.body g.entry) σ = path W f k f.entry (f.body f.entry) σ ∧ SameRes (runFn W f k σ) (runFn W g m σ)) ∧
      (∀ m, ∃ k, path W g m g.entry (g.body g.entry) σ = path W f k f.entry (f.body f.entry) σ ∧ SameRes (runFn W f k σ) (runFn W g m σ)) := by
    intro hd tl h hfirst
    have ho : SplitOk f (f.parent x) tl := ⟨hw, hg, h1, hsucc, hfirst⟩
    have hr : Rel f (f.parent x) (freshBb f) hd tl f.entry (f.body f.entry) g.entry (g.body g.entry) := by
      rw [h.entry, h.body _ hent]
      by_cases e : f.entry = f.parent x
      · rw [if_pos e, e, h.list]; exact .head (fun y hy => hy)
      · rw [if_neg e]; exact .other hent e (fun y hy => hy)
    refine ⟨fun k => ?_, fun m => ?_⟩
    · obtain ⟨m, _, i2, i3⟩ := h.forward (W := W) ho k σ hr
      exact ⟨m, i2, i3⟩
    · exact h.backward (W := W) ho m σ hr
  obtain ⟨A, B, l1, l2, l3, l4⟩ := take_drop _ _ h2
  rcases split_spec hg h1 h2 hs with ⟨hp, h⟩ | ⟨hp, h⟩
  · refine key _ _ h ?_
    intro y hy
    rw [l4] at hy
    simp only [List.head?_cons, Option.some.injEq] at hy
    exact hphi y (.inl ⟨hy.symm, hp⟩)
  · refine key _ _ h ?_
    intro y hy
    exact hphi y (.inr ⟨hp, hy⟩)

/-! ## C46 -/

/-- Where a new instruction belongs among the instructions `l` of its block, split in `A` and `B` at the place. -/
def AtBb (f : Fn) (A B : List Nat) : Pos → Prop
  | .back => B = []
  | .front => A = []
  | .backBeforeJmp => (B = [] ∧ ∀ a, A.getLast? = some a → isJmp (f.insn a).op = false) ∨ ∃ a, B = [a] ∧ isJmp (f.insn a).op = true
  | .frontAfterPhi => (∀ a ∈ A, (f.insn a).op = .phi) ∧ ∀ a, B.head? = some a → (f.insn a).op ≠ .phi

theorem takeDrop_all {p : Nat → Bool} {l : List Nat} (h : ∀ y ∈ l, p y = true) : l.takeWhile p = l ∧ l.dropWhile p = [] := by
  induction l with
  | nil => exact ⟨rfl, rfl⟩
  | cons a l ih =>
    have h1 := h a (List.mem_cons_self ..)
    obtain ⟨i1, i2⟩ := ih (fun y hy => h y (List.mem_cons_of_mem _ hy))
    exact ⟨by rw [List.takeWhile_cons, h1, i1]; rfl, by rw [List.dropWhile_cons, h1, i2]; rfl⟩

theorem placeBb_at {f : Fn} {l : List Nat} {x : Nat} {pos : Pos} (hn : l.Nodup) : ∃ A B, l = A ++ B ∧ placeBb f l x pos = A ++ x :: B ∧ AtBb f A B pos := by
  cases pos with
  | back => exact ⟨l, [], by simp, rfl, rfl⟩
  | front => exact ⟨[], l, rfl, rfl, rfl⟩
  | backBeforeJmp =>
    simp only [placeBb]
    cases hl : l.getLast? with
    | none =>
      have : l = [] := by simpa using hl
      subst this
      exact ⟨[], [], rfl, rfl, .inl ⟨rfl, by simp⟩⟩
    | some a =>
      dsimp only
      by_cases hj : isJmp (f.insn a).op = true
      · rw [if_pos hj]
        obtain ⟨A, rfl⟩ : ∃ A, l = A ++ [a] := by
          rw [List.getLast?_eq_some_iff] at hl; exact hl
        have ha : a ∉ A := by
          intro hm
          rw [List.nodup_append] at hn
          exact hn.2.2 a hm a (by simp) rfl
        have h1 := takeWhile_append_of (p := (· != a)) (hd := A) (tl := [a]) (by intro y hy; simp at hy; simp [hy])
        have h2 : A.takeWhile (· != a) = A ∧ A.dropWhile (· != a) = [] := by
          have : ∀ y ∈ A, (y != a) = true := fun y hy => by simp; intro e; exact ha (e ▸ hy)
          exact takeDrop_all this
        refine ⟨A, [a], rfl, ?_, .inr ⟨a, rfl, hj⟩⟩
        unfold insBefore
        rw [h1.1, h1.2, h2.1, h2.2]; rfl
      · rw [if_neg hj]
        exact ⟨l, [], by simp, rfl, .inl ⟨rfl, fun b hb => by rw [hl] at hb; cases hb; simpa using hj⟩⟩
  | frontAfterPhi =>
    simp only [placeBb]
    cases hf : l.find? (fun a => (f.insn a).op != .phi) with
    | none =>
      refine ⟨l, [], by simp, rfl, ?_, by simp⟩
      simpa using hf
    | some a =>
      dsimp only
      rw [List.find?_eq_some_iff_append] at hf
      obtain ⟨h1, A, B, rfl, h3⟩ := hf
      have ha : ∀ y ∈ A, (y != a) = true := by
        intro y hy
        rw [List.nodup_append] at hn
        simp
        exact hn.2.2 y hy a (by simp)
      refine ⟨A, a :: B, rfl, ?_, ?_, ?_⟩
      · unfold insBefore
        have h4 := takeWhile_append_of (p := (· != a)) (hd := A) (tl := a :: B) (by intro y hy; simp at hy; simp [hy])
        have h5 : A.takeWhile (· != a) = A ∧ A.dropWhile (· != a) = [] := takeDrop_all ha
        rw [h4.1, h4.2, h5.1, h5.2]; rfl
      · intro y hy; simpa using h3 y hy
      · intro y hy; simp at hy; subst hy; simpa using h1

/-- **C46**, positions in a block: the new instruction is at the end; at the front; at the end, but in front of
a final jump; behind the leading phis.  The other instructions keep their order and the other blocks are as before. -/
theorem C46_insert_block {f : Fn} {i : Insn} {b : Nat} {pos : Pos} (ht : Tidy f) (hb : b ∈ f.allBbs) :
    (∃ A B, f.body b = A ++ B ∧ (createBb f i b pos).body b = A ++ f.next :: B ∧ AtBb f A B pos) ∧
    (∀ c, c ≠ b → (createBb f i b pos).body c = f.body c) ∧ (createBb f i b pos).insn f.next = i ∧
    ∀ y, y ≠ f.next → (createBb f i b pos).insn y = f.insn y := by
  have h := alloc_same f i b
  have h' := added_createBb f i b pos
  refine ⟨?_, h'.body, by rw [h'.insn, upd_same], fun y hy => by rw [h'.insn, upd_ne _ _ hy]⟩
  obtain ⟨A, B, h1, h2, h3⟩ := placeBb_at (f := alloc f i b) (x := f.next) (pos := pos) (ht.nodup b hb)
  refine ⟨A, B, h1, ?_, ?_⟩
  · unfold createBb; dsimp only; rw [upd_same, h.body]; exact h2
  · have hop : ∀ y ∈ f.body b, (alloc f i b).insn y = f.insn y := by
      intro y hy
      rw [h.insn]
      have : y ≠ f.next := fun e => next_dead ht (.inr (.inr ⟨b, hb, by rw [← e]; exact hy⟩))
      exact upd_ne _ _ this
    have hA : ∀ y ∈ A, (alloc f i b).insn y = f.insn y := fun y hy => hop y (by rw [h1]; exact List.mem_append_left _ hy)
    have hB : ∀ y ∈ B, (alloc f i b).insn y = f.insn y := fun y hy => hop y (by rw [h1]; exact List.mem_append_right _ hy)
    cases pos with
    | back => exact h3
    | front => exact h3
    | backBeforeJmp =>
      rcases h3 with ⟨h3, h4⟩ | ⟨a, h3, h4⟩
      · exact .inl ⟨h3, fun a ha => by rw [← hA a (List.mem_of_getLast? ha)]; exact h4 a ha⟩
      · exact .inr ⟨a, h3, by rw [← hB a (by rw [h3]; simp)]; exact h4⟩
    | frontAfterPhi =>
      refine ⟨fun a ha => by rw [← hA a ha]; exact h3.1 a ha, fun a ha => by rw [← hB a (List.mem_of_head? ha)]; exact h3.2 a ha⟩

/-- **C46**, next to an instruction `a`: directly in front of or directly behind it.  Only when `a` is a phi and the
new instruction is not, it is put behind the leading phis instead.  The other instructions keep their order. -/
theorem C46_insert_at {f g : Fn} {i : Insn} {a : Nat} {pos : Pos} (ht : Tidy f) (ha : InBody f a) (hc : createAt f i a pos = .ok g) :
    (∃ A B, f.body (f.parent a) = A ++ B ∧ g.body (f.parent a) = A ++ f.next :: B ∧
      (if (f.insn a).op = .phi ∧ i.op ≠ .phi then AtBb f A B .frontAfterPhi
       else (pos = .front ∧ B.head? = some a) ∨ (pos = .back ∧ A.getLast? = some a))) ∧
    (∀ c, c ≠ f.parent a → g.body c = f.body c) ∧ g.insn f.next = i ∧ ∀ y, y ≠ f.next → g.insn y = f.insn y := by
  obtain ⟨hb, hm⟩ := inBody_parent ht ha
  have h := alloc_same f i (f.parent a)
  have h' := added_createAt hc hm
  have hop : ∀ y ∈ f.body (f.parent a), (alloc f i (f.parent a)).insn y = f.insn y := by
    intro y hy
    rw [h.insn]
    have : y ≠ f.next := fun e => next_dead ht (.inr (.inr ⟨_, hb, by rw [← e]; exact hy⟩))
    exact upd_ne _ _ this
  have hopx : ((alloc f i (f.parent a)).insn f.next) = i := by rw [h.insn]; exact upd_same ..
  refine ⟨?_, h'.body, by rw [h'.insn, upd_same], fun y hy => by rw [h'.insn, upd_ne _ _ hy]⟩
  unfold createAt at hc
  obtain ⟨l, h1, h2⟩ := Out.bind_eq_ok.1 hc
  cases h2
  dsimp only
  rw [upd_same]
  unfold placeAt at h1
  rw [hopx, hop a hm, h.body] at h1
  split at h1
  · rename_i hphi
    cases h1
    obtain ⟨A, B, p1, p2, p3⟩ := placeBb_at (f := alloc f i (f.parent a)) (x := f.next) (pos := .frontAfterPhi) (ht.nodup _ hb)
    refine ⟨A, B, p1, p2, ?_⟩
    rw [if_pos hphi]
    refine ⟨fun y hy => ?_, fun y hy => ?_⟩
    · rw [← hop y (by rw [p1]; exact List.mem_append_left _ hy)]; exact p3.1 y hy
    · rw [← hop y (by rw [p1]; exact List.mem_append_right _ (List.mem_of_head? hy))]; exact p3.2 y hy
  · rename_i hphi
    obtain ⟨A, B, l1, l2, l3, l4⟩ := take_drop _ _ hm
    cases pos with
    | back =>
      cases h1
      refine ⟨A ++ [a], B, by rw [l1]; simp, ?_, ?_⟩
      · unfold insAfter; rw [l3, l4]; simp
      · rw [if_neg hphi]; exact .inr ⟨rfl, by simp⟩
    | front =>
      cases h1
      refine ⟨A, a :: B, l1, ?_, ?_⟩
      · unfold insBefore; rw [l3, l4]
      · rw [if_neg hphi]; exact .inl ⟨rfl, rfl⟩
    | backBeforeJmp => cases h1
    | frontAfterPhi => cases h1

/-! ## Examples -/

/-- A function with an empty entry block: instruction 0 is the stack pointer, 1 to 5 are the arguments. -/
def emptyFn : Fn where
  insn := fun x => if x = 0 then { op := .reg, aux := 10 } else { op := .funarg }
  users := fun _ => []
  next := 6
  parent := fun _ => 0
  body := fun _ => []
  preds := fun _ => []
  succs := fun _ => []
  allBbs := [0]
  entry := 0
  sp := 0
  args := [1, 2, 3, 4, 5]

theorem emptyFn_live {x : Nat} (h : Live emptyFn x) : x ≤ 5 := by
  rcases h with h | h | ⟨b, _, h⟩
  · have : x = 0 := h
    omega
  · have h' : x ∈ [1, 2, 3, 4, 5] := h
    simp at h'; omega
  · cases h

theorem emptyFn_refs (x y : Nat) : refs (emptyFn.insn x) y = 0 := by
  unfold refs emptyFn
  dsimp only
  by_cases h : x = 0 <;> simp [h]

theorem emptyFn_good : Tidy emptyFn ∧ UsersExact emptyFn ∧ Graph emptyFn := by
  refine ⟨⟨?_, ?_, ?_, ?_, ?_⟩, ?_, ⟨?_, ?_, ?_⟩⟩
  · intro x hx; have := emptyFn_live hx; change x < 6; omega
  · intro x y _ h; rw [emptyFn_refs] at h; omega
  · intro b _ x h; cases h
  · intro b _; exact List.nodup_nil
  · intro b _ x h; cases h
  · intro y _; refine ⟨fun x _ => ?_, fun x h => by cases h⟩
    rw [emptyFn_refs]; rfl
  · intro a _ b _
    constructor <;> intro h <;> cases h
  · intro a _; exact ⟨List.nodup_nil, fun b h => by cases h⟩
  · intro a _; exact ⟨List.nodup_nil, fun b h => by cases h⟩

/-- `%6 = add %1 %1`, `ret %6`, then a split in front of the return, then the first operand of the addition becomes 7. -/
def ex1 : Fn := createBb emptyFn (mkBin .add .w64 (.insn 1) (.insn 1)) 0 .back
def ex2 : Fn := createBb ex1 (mkRet (.insn 6)) 0 .back
def ex3 : Out Fn := do
  let g ← split ex2 7 .front
  changeValue g 6 (.val 0) (const64 7)

theorem ex2_edits : Edits emptyFn ex2 := by
  refine .step (.step .refl (.createBb (by decide) ?_)) (.createBb (by decide) ?_)
  · intro y hy
    have : y = 1 := by
      by_cases e : y = 1
      · exact e
      · have : ¬ (1 = y) := fun h => e h.symm
        simp [refs, mkBin, this] at hy
    subst this
    exact .inr (.inl (by decide))
  · intro y hy
    have : y = 6 := by
      by_cases e : y = 6
      · exact e
      · have : ¬ (6 = y) := fun h => e h.symm
        simp [refs, mkRet, this] at hy
    subst this
    exact .inr (.inr ⟨0, by decide, by decide⟩)

/-- The conditions of C21, C22, C23 and C46 are met by a function that refers twice to one value and is split. -/
example : ∃ g h, Edits emptyFn g ∧ split ex2 7 .front = .ok g ∧ ex3 = .ok h ∧ Edits emptyFn h ∧
    ex2.users 1 = [6, 6] ∧ refs (ex2.insn 6) 1 = 2 ∧ h.users 1 = [6] ∧ refs (h.insn 6) 1 = 1 ∧ h.succs 0 = [1] ∧ h.preds 1 = [0] ∧
    h.body 0 = [6] ∧ h.body 1 = [7] := by
  have h1 : Edits emptyFn ex2 := ex2_edits
  have hb : InBody ex2 7 := ⟨0, by decide, by decide⟩
  have hs : ∃ g, split ex2 7 .front = .ok g := ⟨_, rfl⟩
  obtain ⟨g, hg⟩ := hs
  have h2 : Edits emptyFn g := .step h1 (.split hb hg)
  have hl : Live g 6 := by
    have : split ex2 7 .front = .ok g := hg
    cases this
    exact .inr (.inr ⟨0, by decide, by decide⟩)
  obtain ⟨h, hh⟩ : ∃ h, changeValue g 6 (.val 0) (const64 7) = .ok h := by cases hg; exact ⟨_, rfl⟩
  have e3 : ex3 = .ok h := by unfold ex3; rw [hg]; exact hh
  refine ⟨g, h, h2, hg, e3, .step h2 (.change (v := const64 7) hl trivial hh), by decide, by decide, ?_⟩
  cases hg
  cases hh
  decide

/-- It runs as before the split. -/
example : Wired ex2 ∧ (∀ t ∈ ex2.succs (ex2.parent 7), phisOf ex2 t = []) ∧ (ex2.insn 7).op ≠ .phi := by
  refine ⟨?_, (by intro t ht; cases ht), by decide⟩
  intro b hb x hx
  have : b = 0 := by
    have h : ex2.allBbs = [0] := by decide
    rw [h] at hb; simpa using hb
  subst this
  have : x = 6 ∨ x = 7 := by
    have h : ex2.body 0 = [6, 7] := by decide
    rw [h] at hx; simpa using hx
  rcases this with rfl | rfl <;> decide

/-! ## Where the code breaks C21 and C23 -/

/-- The call succeeds and its result satisfies `p`. -/
def onOk {α : Type} (o : Out α) (p : α → Bool) : Bool :=
  match o with
  | .ok a => p a
  | _ => false

/-- `r1 += r1; r0 = r1; exit`: the lifter registers a user at most once (`bpf_ir_array_push_unique` in `add_user`),
so the addition, which refers twice to the argument, is listed once, and after one of the operands is changed it is
not listed at all although it still refers to the argument. -/
theorem C21_violated_lift :
    onOk (Lift.lift 9 [⟨0x0f, 1, 1, 0, 0⟩, ⟨0xbf, 0, 1, 0, 0⟩, ⟨0x95, 0, 0, 0, 0⟩]) (fun f =>
      (f.users 1).count 6 = 1 ∧ refs (f.insn 6) 1 = 2 ∧
      onOk (changeValue f 6 (.val 0) (const64 7)) (fun g => g.users 1 = [] ∧ refs (g.insn 6) 1 = 1)) = true := by decide +kernel

/-- Replacing a value by itself duplicates the entries: from 2 to 4. -/
theorem C21_violated_self : (ex2.users 1).count 6 = 2 ∧ ((replaceAll ex2 1 (.insn 1)).users 1).count 6 = 4 ∧
    refs ((replaceAll ex2 1 (.insn 1)).insn 6) 1 = 2 := by decide

/-- A block that jumps to a block with a phi. -/
def phiFn : Fn :=
  let f := newBb emptyFn
  let f := createBb f (mkAssign (const64 5)) 0 .back
  let f := createBb f (mkJa 1) 0 .back
  let f := connect f 0 1
  let f := createBb f mkPhi 1 .back
  let f := phiAddOperand f 8 0 (.insn 6)
  createBb f (mkRet (.insn 8)) 1 .back

def irSt : IR.St := { env := fun _ => 0, var := fun _ => 0, mem := fun _ => 0, trace := [] }

def retOf (f : Fn) (k : Nat) : Option (BitVec 64) :=
  match runFn Lift.exWI f k irSt with
  | .done x _ => some x
  | _ => none

def stuckOf (f : Fn) (k : Nat) : Bool :=
  match runFn Lift.exWI f k irSt with
  | .stuck => true
  | _ => false

/-- After a split in front of the jump control reaches the phi from the new block, for which it has no operand. -/
theorem C23_violated_phi : retOf phiFn 9 = some 5 ∧
    onOk (split phiFn 7 .front) (fun g => stuckOf g 9 = true ∧ (g.insn 8).phi = [(0, .insn 6)] ∧ g.preds 1 = [2]) = true := by
  decide +kernel

end Verif.Edit
