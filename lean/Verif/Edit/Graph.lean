import Verif.Edit.Users
/-!
# The block graph under edits
-/
namespace Verif.Edit
open Verif Verif.IR
set_option linter.unusedSimpArgs false

/-- Only the graph differs (and blocks without instructions may have been added). -/
structure SameCode (f g : Fn) : Prop where
  insn : g.insn = f.insn
  users : g.users = f.users
  next : g.next = f.next
  parent : g.parent = f.parent
  sp : g.sp = f.sp
  args : g.args = f.args
  old : ∀ b ∈ f.allBbs, b ∈ g.allBbs ∧ g.body b = f.body b
  new : ∀ b ∈ g.allBbs, b ∉ f.allBbs → g.body b = []

theorem SameCode.body {f g : Fn} (h : SameCode f g) {b x : Nat} (hb : b ∈ g.allBbs) (hx : x ∈ g.body b) : b ∈ f.allBbs ∧ x ∈ f.body b := by
  rcases Classical.em (b ∈ f.allBbs) with h1 | h1
  · exact ⟨h1, by rw [← (h.old b h1).2]; exact hx⟩
  · rw [h.new b hb h1] at hx; cases hx

theorem SameCode.live {f g : Fn} (h : SameCode f g) {x : Nat} : Live g x ↔ Live f x := by
  unfold Live InBody
  rw [h.sp, h.args]
  constructor
  · rintro (h1 | h1 | ⟨b, hb, hx⟩)
    · exact .inl h1
    · exact .inr (.inl h1)
    · exact .inr (.inr ⟨b, (h.body hb hx).1, (h.body hb hx).2⟩)
  · rintro (h1 | h1 | ⟨b, hb, hx⟩)
    · exact .inl h1
    · exact .inr (.inl h1)
    · exact .inr (.inr ⟨b, (h.old b hb).1, by rw [(h.old b hb).2]; exact hx⟩)

theorem SameCode.tidy {f g : Fn} (h : SameCode f g) (ht : Tidy f) : Tidy g := by
  refine ⟨?_, ?_, ?_, ?_, ?_⟩
  · intro x hx; rw [h.next]; exact ht.lt x (h.live.1 hx)
  · intro x y hx; rw [h.insn]; intro hy; exact h.live.2 (ht.closed x y (h.live.1 hx) hy)
  · intro b hb x hx
    obtain ⟨h1, h2⟩ := h.body hb hx
    rw [h.parent]; exact ht.parent b h1 x h2
  · intro b hb
    rcases Classical.em (b ∈ f.allBbs) with h1 | h1
    · rw [(h.old b h1).2]; exact ht.nodup b h1
    · rw [h.new b hb h1]; exact List.nodup_nil
  · intro b hb x hx
    obtain ⟨h1, h2⟩ := h.body hb hx
    rw [h.sp, h.args]; exact ht.fixed b h1 x h2

theorem SameCode.exact {f g : Fn} (h : SameCode f g) (hu : UsersExact f) : UsersExact g := by
  intro y hy
  rw [h.live] at hy
  refine ⟨?_, ?_⟩
  · intro x hx; rw [h.users, h.insn]; exact (hu y hy).1 x (h.live.1 hx)
  · intro x hx; rw [h.users] at hx; exact h.live.2 ((hu y hy).2 x hx)

theorem sameCode_newBb (f : Fn) : SameCode f (newBb f) := by
  refine ⟨rfl, rfl, rfl, rfl, rfl, rfl, ?_, ?_⟩
  · intro b hb
    exact ⟨List.mem_append_left _ hb, upd_ne _ _ (fun e => fresh_not_mem f (by rw [← e]; exact hb))⟩
  · intro b hb hn
    have : b = freshBb f := by
      rcases List.mem_append.1 hb with h | h
      · exact absurd h hn
      · exact List.mem_singleton.1 h
    subst this
    exact upd_same ..

theorem sameCode_connect (f : Fn) (a b : Nat) : SameCode f (connect f a b) :=
  ⟨rfl, rfl, rfl, rfl, rfl, rfl, fun _ h => ⟨h, rfl⟩, fun _ h h' => absurd h h'⟩
theorem sameCode_disconnect (f : Fn) (a b : Nat) : SameCode f (disconnect f a b) :=
  ⟨rfl, rfl, rfl, rfl, rfl, rfl, fun _ h => ⟨h, rfl⟩, fun _ h h' => absurd h h'⟩

/-! ## Symmetry -/

theorem graph_newBb {f : Fn} (h : Graph f) : Graph (newBb f) := by
  have hn := fresh_not_mem f
  have hm : ∀ b, b ∈ (newBb f).allBbs ↔ b ∈ f.allBbs ∨ b = freshBb f := fun b => by simp [newBb]
  have hs : ∀ b, (newBb f).succs b = if b = freshBb f then [] else f.succs b := fun b => rfl
  have hp : ∀ b, (newBb f).preds b = if b = freshBb f then [] else f.preds b := fun b => rfl
  refine ⟨?_, ?_, ?_⟩
  · intro a ha b hb
    rw [hs, hp]
    by_cases ea : a = freshBb f
    · rw [if_pos ea]
      by_cases eb : b = freshBb f
      · rw [if_pos eb]; simp
      · rw [if_neg eb]
        have hb' := ((hm b).1 hb).resolve_right eb
        simp only [List.not_mem_nil, false_iff]
        intro hc
        exact hn (by rw [← ea]; exact (h.preds b hb').2 a hc)
    · rw [if_neg ea]
      have ha' := ((hm a).1 ha).resolve_right ea
      by_cases eb : b = freshBb f
      · rw [if_pos eb]
        simp only [List.not_mem_nil, iff_false]
        intro hc
        exact hn (by rw [← eb]; exact (h.succs a ha').2 b hc)
      · rw [if_neg eb]; exact h.sym a ha' b (((hm b).1 hb).resolve_right eb)
  · intro a ha
    rw [hs]
    split
    · simp
    · rename_i ea
      have := h.succs a (((hm a).1 ha).resolve_right ea)
      exact ⟨this.1, fun b hb => (hm b).2 (.inl (this.2 b hb))⟩
  · intro a ha
    rw [hp]
    split
    · simp
    · rename_i ea
      have := h.preds a (((hm a).1 ha).resolve_right ea)
      exact ⟨this.1, fun b hb => (hm b).2 (.inl (this.2 b hb))⟩

theorem graph_connect {f : Fn} (h : Graph f) {a b : Nat} (ha : a ∈ f.allBbs) (hb : b ∈ f.allBbs) : Graph (connect f a b) := by
  have hs : ∀ c d, d ∈ (connect f a b).succs c ↔ d ∈ f.succs c ∨ (c = a ∧ d = b) := by
    intro c d
    simp only [connect, upd]
    by_cases e : c = a
    · subst e; simp [mem_pushU]
    · simp [e]
  have hp : ∀ c d, c ∈ (connect f a b).preds d ↔ c ∈ f.preds d ∨ (c = a ∧ d = b) := by
    intro c d
    simp only [connect, upd]
    by_cases e : d = b
    · subst e; simp [mem_pushU]
    · simp [e]
  refine ⟨?_, ?_, ?_⟩
  · intro c hc d hd; rw [hs, hp, h.sym c hc d hd]
  · intro c hc
    refine ⟨?_, ?_⟩
    · simp only [connect, upd]
      split
      · exact nodup_pushU (h.succs a ha).1
      · exact (h.succs c hc).1
    · intro d hd
      rcases (hs c d).1 hd with h1 | ⟨_, rfl⟩
      · exact (h.succs c hc).2 d h1
      · exact hb
  · intro c hc
    refine ⟨?_, ?_⟩
    · simp only [connect, upd]
      split
      · exact nodup_pushU (h.preds b hb).1
      · exact (h.preds c hc).1
    · intro d hd
      rcases (hp d c).1 hd with h1 | ⟨rfl, _⟩
      · exact (h.preds c hc).2 d h1
      · exact ha

theorem graph_disconnect {f : Fn} (h : Graph f) {a b : Nat} (ha : a ∈ f.allBbs) (hb : b ∈ f.allBbs) : Graph (disconnect f a b) := by
  have hs : ∀ c ∈ f.allBbs, ∀ d, d ∈ (disconnect f a b).succs c ↔ d ∈ f.succs c ∧ ¬ (c = a ∧ d = b) := by
    intro c hc d
    simp only [disconnect, upd]
    by_cases e : c = a
    · subst e; simp [(h.succs c hc).1.mem_erase_iff, and_comm]
    · simp [e]
  have hp : ∀ d ∈ f.allBbs, ∀ c, c ∈ (disconnect f a b).preds d ↔ c ∈ f.preds d ∧ ¬ (c = a ∧ d = b) := by
    intro d hd c
    simp only [disconnect, upd]
    by_cases e : d = b
    · subst e; simp [(h.preds d hd).1.mem_erase_iff, and_comm]
    · simp [e]
  refine ⟨?_, ?_, ?_⟩
  · intro c hc d hd; rw [hs c hc, hp d hd, h.sym c hc d hd]
  · intro c hc
    refine ⟨?_, fun d hd => (h.succs c hc).2 d ((hs c hc d).1 hd).1⟩
    simp only [disconnect, upd]
    split
    · exact (h.succs a ha).1.erase _
    · exact (h.succs c hc).1
  · intro c hc
    refine ⟨?_, fun d hd => (h.preds c hc).2 d ((hp c hc d).1 hd).1⟩
    simp only [disconnect, upd]
    split
    · exact (h.preds b hb).1.erase _
    · exact (h.preds c hc).1

/-! ## Splitting -/

theorem split_fold {b n : Nat} (hbn : b ≠ n) : ∀ (l : List Nat) (g : Fn), l.Nodup →
    (∀ s ∈ l, s ∉ g.succs n ∧ s ∉ g.succs b ∧ n ∉ (g.preds s)) →
    SameCode g (l.foldl (fun f s => connect (disconnect f b s) n s) g) ∧
    (l.foldl (fun f s => connect (disconnect f b s) n s) g).allBbs = g.allBbs ∧
    (l.foldl (fun f s => connect (disconnect f b s) n s) g).body = g.body ∧
    (l.foldl (fun f s => connect (disconnect f b s) n s) g).entry = g.entry ∧
    (l.foldl (fun f s => connect (disconnect f b s) n s) g).succs = upd g.succs n (g.succs n ++ l) ∧
    (l.foldl (fun f s => connect (disconnect f b s) n s) g).preds = fun c => if c ∈ l then (g.preds c).erase b ++ [n] else g.preds c := by
  intro l
  induction l with
  | nil =>
    intro g _ _
    refine ⟨⟨rfl, rfl, rfl, rfl, rfl, rfl, fun _ h => ⟨h, rfl⟩, fun _ h h' => absurd h h'⟩, rfl, rfl, rfl, ?_, ?_⟩
    · funext c; simp [upd]; intro e; rw [e]
    · funext c; simp
  | cons s l ih =>
    intro g hnd hl
    rw [List.foldl_cons]
    obtain ⟨hsl, hnd'⟩ := List.nodup_cons.1 hnd
    obtain ⟨h1, h2, h3⟩ := hl s (List.mem_cons_self ..)
    have hsucc : (connect (disconnect g b s) n s).succs = upd g.succs n (g.succs n ++ [s]) := by
      funext c
      simp only [connect, disconnect, upd]
      have hnb : n ≠ b := fun e => hbn e.symm
      by_cases e : c = n
      · subst e
        simp only [if_true, hnb, if_false, pushU, h1]
      · simp only [e, if_false]
        by_cases e' : c = b
        · subst e'
          simp [List.erase_of_not_mem h2]
        · simp [e']
    have hpred : (connect (disconnect g b s) n s).preds = fun c => if c = s then (g.preds s).erase b ++ [n] else g.preds c := by
      funext c
      simp only [connect, disconnect, upd]
      by_cases e : c = s
      · subst e
        have : n ∉ (g.preds c).erase b := fun hm => h3 (List.mem_of_mem_erase hm)
        simp [pushU, this]
      · simp [e]
    obtain ⟨i0, i1, i2, i3, i4, i5⟩ := ih (connect (disconnect g b s) n s) hnd' (by
      intro t ht
      have hts : t ≠ s := fun e => hsl (by rw [← e]; exact ht)
      obtain ⟨j1, j2, j3⟩ := hl t (List.mem_cons_of_mem _ ht)
      rw [hsucc, hpred]
      refine ⟨?_, ?_, ?_⟩
      · rw [upd_same]; simp [j1, hts]
      · rw [upd_ne _ _ hbn]; exact j2
      · simp only [hts, if_false]; exact j3)
    refine ⟨⟨i0.insn, i0.users, i0.next, i0.parent, i0.sp, i0.args, ?_, ?_⟩, i1, i2, i3, ?_, ?_⟩
    · intro c hc; exact ⟨by rw [i1]; exact hc, by rw [i2]; rfl⟩
    · intro c hc hn; rw [i1] at hc; exact absurd hc hn
    · rw [i4, hsucc]
      funext c
      simp only [upd]
      split
      · simp
      · rfl
    · rw [i5, hpred]
      funext c
      dsimp only
      by_cases e : c = s
      · subst e; simp [hsl]
      · simp [e]

/-- What the edges are after a split. -/
structure SplitEdges (f : Fn) (b n : Nat) (g : Fn) : Prop where
  code : SameCode (newBb f) g
  allBbs : g.allBbs = f.allBbs ++ [n]
  body : g.body = (newBb f).body
  entry : g.entry = f.entry
  succs : ∀ c, g.succs c = if c = b then [n] else if c = n then f.succs b else f.succs c
  preds : ∀ c, g.preds c = if c = n then [b] else if c ∈ f.succs b then (f.preds c).erase b ++ [n] else f.preds c

theorem splitEdges_spec {f : Fn} (h : Graph f) {b : Nat} (hb : b ∈ f.allBbs) :
    SplitEdges f b (freshBb f) (splitEdges (newBb f) b (freshBb f)) := by
  have hn := fresh_not_mem f
  have hbn : b ≠ freshBb f := fun e => hn (by rw [← e]; exact hb)
  have hsb : (newBb f).succs b = f.succs b := upd_ne _ _ hbn
  have hsn : ∀ s ∈ f.succs b, s ≠ freshBb f := fun s hs e => hn (by rw [← e]; exact (h.succs b hb).2 s hs)
  have hsuc : ∀ c, (connect { newBb f with succs := upd (newBb f).succs b [] } b (freshBb f)).succs c =
      if c = b then [freshBb f] else if c = freshBb f then [] else f.succs c := by
    intro c
    simp only [connect, upd, newBb, pushU]
    by_cases e : c = b <;> simp [e]
  have hpre : ∀ c, (connect { newBb f with succs := upd (newBb f).succs b [] } b (freshBb f)).preds c =
      if c = freshBb f then [b] else f.preds c := by
    intro c
    simp only [connect, upd, newBb, pushU]
    by_cases e : c = freshBb f <;> simp [e]
  have key := split_fold hbn (f.succs b) (connect { newBb f with succs := upd (newBb f).succs b [] } b (freshBb f)) (h.succs b hb).1 (by
    intro s hs
    rw [hsuc, hsuc, hpre, if_neg (fun e => hbn e.symm), if_pos rfl, if_pos rfl, if_neg (hsn s hs)]
    refine ⟨by simp, by simpa using hsn s hs, ?_⟩
    intro hm
    exact hn ((h.preds s ((h.succs b hb).2 s hs)).2 _ hm))
  obtain ⟨i0, i1, i2, i3, i4, i5⟩ := key
  have hdef : splitEdges (newBb f) b (freshBb f) = (f.succs b).foldl (fun g s => connect (disconnect g b s) (freshBb f) s)
    (connect { newBb f with succs := upd (newBb f).succs b [] } b (freshBb f)) := by
    unfold splitEdges
    rw [hsb]
  rw [hdef]
  refine ⟨⟨i0.insn, i0.users, i0.next, i0.parent, i0.sp, i0.args, ?_, ?_⟩, by rw [i1]; rfl, by rw [i2]; rfl, by rw [i3]; rfl, ?_, ?_⟩
  · intro c hc; exact ⟨by rw [i1]; exact hc, by rw [i2]; rfl⟩
  · intro c hc hn; rw [i1] at hc; exact absurd hc hn
  · intro c
    rw [i4]
    simp only [upd, hsuc]
    by_cases e : c = freshBb f
    · have h1 : ¬ c = b := fun e' => hbn (e'.symm.trans e)
      have h2 : ¬ freshBb f = b := fun e' => hbn e'.symm
      rw [if_pos e, if_neg h1, if_pos e, if_neg h2]; simp
    · simp [e]
  · intro c
    rw [i5]
    simp only [hpre]
    by_cases e : c = freshBb f
    · have : c ∉ f.succs b := fun hm => hsn c hm e
      rw [if_neg this, if_pos e, if_pos e]
    · simp [e]

theorem graph_splitEdges {f g : Fn} {b n : Nat} (h : Graph f) (hb : b ∈ f.allBbs) (hn : n ∉ f.allBbs) (hall : g.allBbs = f.allBbs ++ [n])
    (hsucc : ∀ c, g.succs c = if c = b then [n] else if c = n then f.succs b else f.succs c)
    (hpred : ∀ c, g.preds c = if c = n then [b] else if c ∈ f.succs b then (f.preds c).erase b ++ [n] else f.preds c) : Graph g := by
  have hbn : b ≠ n := fun e => hn (by rw [← e]; exact hb)
  have hm : ∀ c, c ∈ g.allBbs ↔ c ∈ f.allBbs ∨ c = n := fun c => by rw [hall]; simp
  have hs : ∀ c ∈ g.allBbs, ∀ d, d ∈ g.succs c ↔ (c = b ∧ d = n) ∨ (c = n ∧ d ∈ f.succs b) ∨ (c ≠ b ∧ c ∈ f.allBbs ∧ d ∈ f.succs c) := by
    intro c hc d
    rw [hsucc]
    by_cases e : c = b
    · subst e; simp [hbn]
    · by_cases e' : c = n
      · subst e'; simp [e, hn]
      · have := ((hm c).1 hc).resolve_right e'
        simp [e, e', this]
  have hp : ∀ d ∈ g.allBbs, ∀ c, c ∈ g.preds d ↔ (c = b ∧ d = n) ∨ (c = n ∧ d ∈ f.allBbs ∧ d ∈ f.succs b) ∨ (c ≠ b ∧ d ∈ f.allBbs ∧ c ∈ f.preds d) := by
    intro d hd c
    rw [hpred]
    by_cases e : d = n
    · subst e; simp [hn]
    · have hd' := ((hm d).1 hd).resolve_right e
      rw [if_neg e]
      split
      · rename_i hsd
        simp only [List.mem_append, (h.preds d hd').1.mem_erase_iff, List.mem_singleton]
        simp [e, hd', hsd, or_comm]
      · rename_i hsd
        have : b ∉ f.preds d := fun hm => hsd ((h.sym b hb d hd').2 hm)
        simp only [e, and_false, false_or, hsd, hd', true_and]
        constructor
        · intro hc; exact ⟨fun e' => this (by rw [← e']; exact hc), hc⟩
        · exact fun hc => hc.2
  refine ⟨?_, ?_, ?_⟩
  · intro c hc d hd
    rw [hs c hc, hp d hd]
    constructor
    · rintro (h1 | ⟨h1, h2⟩ | ⟨h1, h2, h3⟩)
      · exact .inl h1
      · exact .inr (.inl ⟨h1, (h.succs b hb).2 d h2, h2⟩)
      · have hd' := (h.succs c h2).2 d h3
        exact .inr (.inr ⟨h1, hd', (h.sym c h2 d hd').1 h3⟩)
    · rintro (h1 | ⟨h1, _, h2⟩ | ⟨h1, h2, h3⟩)
      · exact .inl h1
      · exact .inr (.inl ⟨h1, h2⟩)
      · have hc' := (h.preds d h2).2 c h3
        exact .inr (.inr ⟨h1, hc', (h.sym c hc' d h2).2 h3⟩)
  · intro c hc
    refine ⟨?_, ?_⟩
    · rw [hsucc]
      split
      · simp
      · split
        · exact (h.succs b hb).1
        · rename_i e' ; exact (h.succs c (((hm c).1 hc).resolve_right e')).1
    · intro d hd
      rcases (hs c hc d).1 hd with ⟨_, rfl⟩ | ⟨_, h2⟩ | ⟨_, h2, h3⟩
      · exact (hm _).2 (.inr rfl)
      · exact (hm _).2 (.inl ((h.succs b hb).2 d h2))
      · exact (hm _).2 (.inl ((h.succs c h2).2 d h3))
  · intro d hd
    refine ⟨?_, ?_⟩
    · rw [hpred]
      split
      · simp
      · rename_i e
        have hd' := ((hm d).1 hd).resolve_right e
        split
        · refine nodup_snoc ((h.preds d hd').1.erase _) ?_
          intro hm'
          exact hn ((h.preds d hd').2 n (List.mem_of_mem_erase hm'))
        · exact (h.preds d hd').1
    · intro c hc
      rcases (hp d hd c).1 hc with ⟨rfl, _⟩ | ⟨rfl, _⟩ | ⟨_, h2, h3⟩
      · exact (hm _).2 (.inl hb)
      · exact (hm _).2 (.inr rfl)
      · exact (hm _).2 (.inl ((h.preds d h2).2 c h3))

/-- What a function is after a split of the block `b` into `hd` and `tl`. -/
structure Split (f : Fn) (b n : Nat) (hd tl : List Nat) (g : Fn) : Prop where
  insn : g.insn = f.insn
  users : g.users = f.users
  next : g.next = f.next
  sp : g.sp = f.sp
  args : g.args = f.args
  entry : g.entry = f.entry
  allBbs : g.allBbs = f.allBbs ++ [n]
  fresh : n ∉ f.allBbs
  list : f.body b = hd ++ tl
  ne : tl ≠ []
  body : ∀ c ∈ f.allBbs, g.body c = if c = b then hd else f.body c
  bodyN : g.body n = tl
  parent : ∀ y, g.parent y = if y ∈ tl then n else f.parent y
  succs : ∀ c, g.succs c = if c = b then [n] else if c = n then f.succs b else f.succs c
  preds : ∀ c, g.preds c = if c = n then [b] else if c ∈ f.succs b then (f.preds c).erase b ++ [n] else f.preds c

theorem split_spec {f g : Fn} {x : Nat} {pos : Pos} (h : Graph f) (hb : f.parent x ∈ f.allBbs) (hx : x ∈ f.body (f.parent x))
    (hs : split f x pos = .ok g) :
    (pos = .front ∧ Split f (f.parent x) (freshBb f) ((f.body (f.parent x)).takeWhile (· != x)) ((f.body (f.parent x)).dropWhile (· != x)) g) ∨
    (pos = .back ∧ Split f (f.parent x) (freshBb f) ((f.body (f.parent x)).takeWhile (· != x) ++ [x]) ((f.body (f.parent x)).dropWhile (· != x)).tail g) := by
  have he := splitEdges_spec h hb
  have hn := fresh_not_mem f
  have hbn : f.parent x ≠ freshBb f := fun e => hn (by rw [← e]; exact hb)
  have hbody : (splitEdges (newBb f) (f.parent x) (freshBb f)).body (f.parent x) = f.body (f.parent x) := by
    rw [he.body]; exact upd_ne _ _ hbn
  have mk : ∀ (hd tl : List Nat), f.body (f.parent x) = hd ++ tl → tl ≠ [] →
      Split f (f.parent x) (freshBb f) hd tl
        { splitEdges (newBb f) (f.parent x) (freshBb f) with
          body := upd (upd (splitEdges (newBb f) (f.parent x) (freshBb f)).body (f.parent x) hd) (freshBb f) tl,
          parent := fun y => if y ∈ tl then freshBb f else (splitEdges (newBb f) (f.parent x) (freshBb f)).parent y } := by
    intro hd tl hl ht
    refine ⟨he.code.insn, he.code.users, he.code.next, he.code.sp, he.code.args, he.entry, he.allBbs, hn, hl, ht, ?_, ?_, ?_, he.succs, he.preds⟩
    · intro c hc
      have hcn : c ≠ freshBb f := fun e => hn (by rw [← e]; exact hc)
      dsimp only
      rw [upd_ne _ _ hcn]
      by_cases e : c = f.parent x
      · rw [e, upd_same, if_pos rfl]
      · rw [upd_ne _ _ e, if_neg e, he.body]; exact upd_ne _ _ hcn
    · dsimp only; exact upd_same ..
    · intro y; dsimp only; rw [he.code.parent]; rfl
  unfold split at hs
  dsimp only at hs
  rw [hbody] at hs
  cases pos with
  | front =>
    dsimp only at hs
    split at hs
    · cases hs
    · cases hs
      exact .inl ⟨rfl, mk _ _ List.takeWhile_append_dropWhile.symm (by assumption)⟩
  | back =>
    dsimp only at hs
    split at hs
    · cases hs
    · cases hs
      refine .inr ⟨rfl, mk _ _ ?_ (by assumption)⟩
      obtain ⟨A, B, h1, _, h3, h4⟩ := take_drop _ _ hx
      rw [h3, h4]; simpa using h1
  | backBeforeJmp => cases hs
  | frontAfterPhi => cases hs

theorem Split.graph {f g : Fn} {b n : Nat} {hd tl : List Nat} (h : Split f b n hd tl g) (hg : Graph f) (hb : b ∈ f.allBbs) : Graph g := by
  exact graph_splitEdges hg hb h.fresh h.allBbs h.succs h.preds

theorem Split.mem {f g : Fn} {b n : Nat} {hd tl : List Nat} (h : Split f b n hd tl g) (hb : b ∈ f.allBbs) {c x : Nat} (hc : c ∈ g.allBbs) :
    x ∈ g.body c ↔ (c ∈ f.allBbs ∧ c ≠ b ∧ x ∈ f.body c) ∨ (c = b ∧ x ∈ hd) ∨ (c = n ∧ x ∈ tl) := by
  have hbn : b ≠ n := fun e => h.fresh (by rw [← e]; exact hb)
  rw [h.allBbs] at hc
  rcases List.mem_append.1 hc with hc | hc
  · have hcn : c ≠ n := fun e => h.fresh (by rw [← e]; exact hc)
    rw [h.body c hc]
    by_cases e : c = b
    · subst e; simp [hcn]
    · simp [e, hcn, hc]
  · have := List.mem_singleton.1 hc
    subst this
    rw [h.bodyN]
    have hcb : ¬ c = b := fun e => hbn e.symm
    simp [h.fresh, hcb]

theorem Split.live {f g : Fn} {b n : Nat} {hd tl : List Nat} (h : Split f b n hd tl g) (hb : b ∈ f.allBbs) {x : Nat} : Live g x ↔ Live f x := by
  have hold : ∀ c ∈ f.allBbs, c ∈ g.allBbs := fun c hc => by rw [h.allBbs]; exact List.mem_append_left _ hc
  have hn : n ∈ g.allBbs := by rw [h.allBbs]; simp
  unfold Live
  rw [h.sp, h.args]
  have : InBody g x ↔ InBody f x := by
    constructor
    · rintro ⟨c, hc, hx⟩
      rcases (h.mem hb hc).1 hx with ⟨h1, _, h3⟩ | ⟨_, h3⟩ | ⟨_, h3⟩
      · exact ⟨c, h1, h3⟩
      · exact ⟨b, hb, by rw [h.list]; exact List.mem_append_left _ h3⟩
      · exact ⟨b, hb, by rw [h.list]; exact List.mem_append_right _ h3⟩
    · rintro ⟨c, hc, hx⟩
      by_cases e : c = b
      · subst e
        rw [h.list] at hx
        rcases List.mem_append.1 hx with h3 | h3
        · exact ⟨c, hold c hc, (h.mem hb (hold c hc)).2 (.inr (.inl ⟨rfl, h3⟩))⟩
        · exact ⟨n, hn, (h.mem hb hn).2 (.inr (.inr ⟨rfl, h3⟩))⟩
      · exact ⟨c, hold c hc, (h.mem hb (hold c hc)).2 (.inl ⟨hc, e, hx⟩)⟩
  rw [this]

theorem Split.tidy {f g : Fn} {b n : Nat} {hd tl : List Nat} (h : Split f b n hd tl g) (hb : b ∈ f.allBbs) (ht : Tidy f) : Tidy g := by
  have hl : ∀ {x}, Live g x ↔ Live f x := h.live hb
  have hnd := ht.nodup b hb
  rw [h.list, List.nodup_append] at hnd
  have hof : ∀ c ∈ g.allBbs, ∀ x ∈ g.body c, ∃ d ∈ f.allBbs, x ∈ f.body d := by
    intro c hc x hx
    rcases (h.mem hb hc).1 hx with ⟨h1, _, h3⟩ | ⟨_, h3⟩ | ⟨_, h3⟩
    · exact ⟨c, h1, h3⟩
    · exact ⟨b, hb, by rw [h.list]; exact List.mem_append_left _ h3⟩
    · exact ⟨b, hb, by rw [h.list]; exact List.mem_append_right _ h3⟩
  refine ⟨?_, ?_, ?_, ?_, ?_⟩
  · intro x hx; rw [h.next]; exact ht.lt x (hl.1 hx)
  · intro x y hx; rw [h.insn]; intro hy; exact hl.2 (ht.closed x y (hl.1 hx) hy)
  · intro c hc x hx
    rw [h.parent]
    rcases (h.mem hb hc).1 hx with ⟨h1, h2, h3⟩ | ⟨h1, h3⟩ | ⟨h1, h3⟩
    · rw [if_neg, ht.parent c h1 x h3]
      intro hm
      have := ht.parent b hb x (by rw [h.list]; exact List.mem_append_right _ hm)
      exact h2 (by rw [← ht.parent c h1 x h3, this])
    · rw [if_neg (fun hm => hnd.2.2 x h3 x hm rfl), h1]
      exact ht.parent b hb x (by rw [h.list]; exact List.mem_append_left _ h3)
    · rw [if_pos h3, h1]
  · intro c hc
    rw [h.allBbs] at hc
    rcases List.mem_append.1 hc with hc | hc
    · rw [h.body c hc]
      split
      · exact hnd.1
      · exact ht.nodup c hc
    · rw [List.mem_singleton.1 hc, h.bodyN]; exact hnd.2.1
  · intro c hc x hx
    obtain ⟨d, hd', hx'⟩ := hof c hc x hx
    rw [h.sp, h.args]; exact ht.fixed d hd' x hx'

theorem Split.exact {f g : Fn} {b n : Nat} {hd tl : List Nat} (h : Split f b n hd tl g) (hb : b ∈ f.allBbs) (hu : UsersExact f) : UsersExact g := by
  have hl : ∀ {x}, Live g x ↔ Live f x := h.live hb
  intro y hy
  rw [hl] at hy
  refine ⟨?_, ?_⟩
  · intro x hx; rw [h.users, h.insn]; exact (hu y hy).1 x (hl.1 hx)
  · intro x hx; rw [h.users] at hx; exact hl.2 ((hu y hy).2 x hx)

end Verif.Edit
