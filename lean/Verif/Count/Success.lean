import Verif.Count.Props
import Verif.DivZero.Props
/-!
# The counting passes and the guards of divisions succeed
-/
namespace Verif.Count
open Verif Verif.IR Verif.Edit Verif.Guard

/-- Creating an instruction in front of or behind another one never fails. -/
theorem createAt_ok (f : Fn) (i : Insn) (a : Nat) {pos : Pos} (hp : pos = .front ∨ pos = .back) : ∃ g, createAt f i a pos = .ok g := by
  unfold createAt
  dsimp only
  have : ∃ l, placeAt (alloc f i (f.parent a)) ((alloc f i (f.parent a)).body (f.parent a)) a f.next pos = .ok l := by
    unfold placeAt
    split
    · exact ⟨_, rfl⟩
    · rcases hp with rfl | rfl <;> exact ⟨_, rfl⟩
  obtain ⟨l, hl⟩ := this
  rw [hl, Out.ok_bind]
  exact ⟨_, rfl⟩

theorem splitEdges_body (f : Fn) (b n : Nat) : (splitEdges f b n).body = f.body := by
  have key : ∀ (l : List Nat) (g : Fn), (l.foldl (fun f s => connect (disconnect f b s) n s) g).body = g.body := by
    intro l
    induction l with
    | nil => intro g; rfl
    | cons s l ih => intro g; rw [List.foldl_cons, ih]; rfl
  unfold splitEdges
  dsimp only
  rw [key]
  rfl

theorem dropWhile_at {A B : List Nat} {x : Nat} (h : x ∉ A) : (A ++ x :: B).dropWhile (· != x) = x :: B := by
  induction A with
  | nil => simp [List.dropWhile_cons]
  | cons a A ih =>
    have : a ≠ x := fun e => h (by simp [e])
    rw [List.cons_append, List.dropWhile_cons]
    simp only [bne_iff_ne, ne_eq, this, not_false_eq_true, if_true]
    exact ih fun hm => h (List.mem_cons_of_mem _ hm)

/-- Splitting a block behind an instruction fails only if nothing stands behind it. -/
theorem split_ok {f : Fn} {b s x : Nat} {A B : List Nat} (hp : f.parent s = b) (hb : b ∈ f.allBbs) (hl : f.body b = A ++ s :: x :: B) (hs : s ∉ A) : ∃ g, split f s .back = .ok g := by
  unfold split
  dsimp only
  rw [hp, splitEdges_body]
  have hbn : b ≠ freshBb f := fun e => fresh_not_mem f (by rw [← e]; exact hb)
  have : (newBb f).body b = A ++ s :: x :: B := by rw [← hl]; exact upd_ne _ _ hbn
  rw [this, dropWhile_at hs]
  rw [if_neg (by simp)]
  exact ⟨_, rfl⟩

theorem bump_ok {f : Fn} {x a : Nat} {v : Val} {lim : BitVec 32} (hs : Shape f) {b : Nat} (hb : b ∈ f.allBbs) (hx : x ∈ f.body b)
    (hj : isJmp (f.insn x).op = true) : ∃ g, bump f x a v lim = .ok g := by
  obtain ⟨A, B, hl⟩ := List.append_of_mem hx
  have hpar := hs.tidy.parent b hb x hx
  have hnd := hs.tidy.nodup b hb
  rw [hl] at hnd
  have hxA : x ∉ A := fun hm => (List.nodup_append.1 hnd).2.2 x hm x (by simp) rfl
  have hlt : ∀ y ∈ A ++ x :: B, y < f.next := fun y hy => lt_of_body hs.tidy hb (by rw [hl]; exact hy)
  have hxl := hlt x (by simp)
  have hxphi : (f.insn x).op ≠ .phi := by intro e; rw [e] at hj; cases hj
  obtain ⟨f1, c1⟩ := createAt_ok f (mkLoad (.insn a)) x (.inl rfl)
  obtain ⟨f2, c2⟩ := createAt_ok f1 (mkBin .add .w64 (.insn f.next) v) f.next (.inr rfl)
  obtain ⟨f3, c3⟩ := createAt_ok f2 (mkStore a (.insn f1.next)) f1.next (.inr rfl)
  have a1 := added_createAt c1 (by rw [hpar]; exact hx)
  have b1 := createAt_front c1 (by rw [hpar]; exact hl) hxA hxphi (by omega)
  rw [hpar] at a1 b1
  have p1 : f1.parent f.next = b := by rw [a1.parent, upd_same]
  have i1 : f1.insn f.next = mkLoad (.insn a) := by rw [a1.insn, upd_same]
  have hAn : f.next ∉ A := mem_notin (fun y hy => hlt y (List.mem_append_left _ hy)) (Nat.le_refl _)
  have a2 := added_createAt c2 (by rw [p1, b1]; simp)
  have b2 := createAt_back c2 (by rw [p1]; exact b1) hAn (by rw [i1]; simp [mkLoad]) (by rw [a1.next]; omega)
  rw [p1] at a2 b2
  rw [a1.next] at b2
  have p2 : f2.parent f1.next = b := by rw [a2.parent, upd_same]
  have i2 : f2.insn f1.next = mkBin .add .w64 (.insn f.next) v := by rw [a2.insn, upd_same]
  have a3 := added_createAt c3 (by rw [p2, b2, a1.next]; simp)
  have b3 := createAt_back (A := A ++ [f.next]) (B := x :: B) c3 (by rw [p2, b2, a1.next]; simp) (by
    rw [a1.next]
    simp only [List.mem_append, List.mem_singleton, not_or]
    exact ⟨mem_notin (fun y hy => hlt y (List.mem_append_left _ hy)) (by omega), by omega⟩) (by rw [i2]; simp [mkBin]) (by rw [a2.next]; omega)
  rw [p2] at a3 b3
  rw [a2.next, a1.next] at b3
  have p3 : f3.parent f2.next = b := by rw [a3.parent, upd_same]
  have hb3 : b ∈ f3.allBbs := by rw [a3.allBbs, a2.allBbs, a1.allBbs]; exact hb
  obtain ⟨f4, c4⟩ := split_ok (A := A ++ [f.next] ++ [f.next + 1]) (x := x) (B := B) p3 hb3 (by rw [b3, a2.next, a1.next]; simp) (by
    rw [a2.next, a1.next]
    simp only [List.mem_append, List.mem_singleton, not_or]
    exact ⟨⟨mem_notin (fun y hy => hlt y (List.mem_append_left _ hy)) (by omega), by omega⟩, by omega⟩)
  unfold bump
  dsimp only
  rw [c1, Out.ok_bind, c2, Out.ok_bind, c3, Out.ok_bind]
  unfold errorBlock
  dsimp only
  rw [c4, Out.ok_bind]
  exact createAt_ok _ _ _ (.inr rfl)

theorem bumpEnd_ok {f : Fn} {b a t : Nat} {v : Val} {lim : BitVec 32} (h : f.succs b = [t]) : ∃ g, bumpEnd f b a v lim = .ok g := by
  obtain ⟨f2, c2⟩ := createAt_ok (createBb f (mkLoad (.insn a)) b .back) (mkBin .add .w64 (.insn f.next) v) f.next (.inr rfl)
  obtain ⟨f3, c3⟩ := createAt_ok f2 (mkStore a (.insn (createBb f (mkLoad (.insn a)) b .back).next)) (createBb f (mkLoad (.insn a)) b .back).next (.inr rfl)
  obtain ⟨f5, c5⟩ := createAt_ok (createBb (newBb f3) mkThrow (freshBb f3) .back)
    (mkJbin .jgt .w64 (.insn (createBb f (mkLoad (.insn a)) b .back).next) (const32 lim) t (freshBb f3)) f2.next (.inr rfl)
  unfold bumpEnd
  rw [h]
  dsimp only
  rw [c2, Out.ok_bind, c3, Out.ok_bind, c5, Out.ok_bind]
  exact ⟨_, rfl⟩

/-- A block that ends with a jump or has one successor. -/
def Leaves (f : Fn) (b : Nat) : Prop := (∃ x, (f.body b).getLast? = some x ∧ isJmp (f.insn x).op = true) ∨ ∃ t, f.succs b = [t]

theorem addCounter_ok {f : Fn} {b a : Nat} {lim : BitVec 32} (hs : Shape f) (hb : b ∈ f.allBbs) (hl : Leaves f b) : ∃ g, addCounter f b a lim = .ok g := by
  unfold addCounter
  split
  · rename_i e
    rcases hl with ⟨x, h1, _⟩ | ⟨t, h1⟩
    · rw [e] at h1; cases h1
    · exact bumpEnd_ok h1
  · rename_i x e
    split
    · rename_i hj
      exact bump_ok hs hb (List.mem_of_getLast? e) hj
    · rename_i hj
      rcases hl with ⟨y, h1, h2⟩ | ⟨t, h1⟩
      · rw [e] at h1; cases h1; exact absurd h2 hj
      · exact bumpEnd_ok h1

theorem One.leaves {f g : Fn} {a : Nat} {v : Val} {lim : BitVec 32} {b : Nat} {t e l ad s j : Nat} (hs : Shape f) (O : One f a v lim b g t e l ad s j) {c : Nat} (hc : c ∈ f.allBbs)
    (hcb : c ≠ b) (h : Leaves f c) : Leaves g c := by
  rcases h with ⟨x, h1, h2⟩ | ⟨t, h1⟩
  · refine .inl ⟨x, by rw [O.body c hc hcb]; exact h1, ?_⟩
    rw [O.insn x (lt_of_body hs.tidy hc (List.mem_of_getLast? h1))]
    exact h2
  · exact .inr ⟨t, by rw [O.succs c hc hcb]; exact h1⟩

theorem addAll_ok {a : Nat} {lim : BitVec 32} : ∀ (bs : List Nat) {f : Fn}, Shape f → bs.Nodup → (∀ b ∈ bs, b ∈ f.allBbs ∧ Leaves f b) → Live f a →
    ∃ g, addAll a lim bs f = .ok g := by
  intro bs
  induction bs with
  | nil => intro f _ _ _ _; exact ⟨f, rfl⟩
  | cons b bs ih =>
    intro f hs hnd hin ha
    have hb := hin b (by simp)
    obtain ⟨g, hg⟩ := addCounter_ok (a := a) (lim := lim) hs hb.1 hb.2
    obtain ⟨t, e, l, ad, s, j, O⟩ := addCounter_one hs hb.1 ha hg
    have hnd' := List.nodup_cons.1 hnd
    obtain ⟨g', hg'⟩ := ih O.shape hnd'.2 (fun c hc => by
      have h1 := hin c (List.mem_cons_of_mem _ hc)
      exact ⟨O.sub c h1.1, O.leaves hs h1.1 (fun e => hnd'.1 (e ▸ hc)) h1.2⟩) (O.live ha)
    exact ⟨g', by simp only [addAll]; rw [hg, Out.ok_bind]; exact hg'⟩

theorem addFast_ok {a : Nat} {lim : BitVec 32} : ∀ (bs : List Nat) {f : Fn}, Shape f → bs.Nodup → (∀ b ∈ bs, b ∈ f.allBbs ∧ Leaves f b) → Live f a →
    ∃ g, addFast a lim bs f = .ok g := by
  intro bs
  induction bs with
  | nil => intro f _ _ _ _; exact ⟨f, rfl⟩
  | cons b bs ih =>
    intro f hs hnd hin ha
    have hb := hin b (by simp)
    have hnd' := List.nodup_cons.1 hnd
    simp only [addFast]
    split
    · exact ih hs hnd'.2 (fun c hc => hin c (List.mem_cons_of_mem _ hc)) ha
    · obtain ⟨g, hg⟩ := addCounter_ok (a := a) (lim := lim) hs hb.1 hb.2
      obtain ⟨t, e, l, ad, s, j, O⟩ := addCounter_one hs hb.1 ha hg
      obtain ⟨g', hg'⟩ := ih O.shape hnd'.2 (fun c hc => by
        have h1 := hin c (List.mem_cons_of_mem _ hc)
        exact ⟨O.sub c h1.1, O.leaves hs h1.1 (fun e => hnd'.1 (e ▸ hc)) h1.2⟩) (O.live ha)
      exact ⟨g', by rw [hg, Out.ok_bind]; exact hg'⟩

theorem setup_ok (f : Fn) : ∃ g, setup f = .ok g := createAt_ok _ _ _ (.inr rfl)

theorem insnCounter_ok {rs : List Nat} {f : Fn} (hi : Input rs f) (hl : ∀ b ∈ f.allBbs, Leaves f b) (acc : Bool) (lim : BitVec 32) : ∃ g, insnCounter rs acc lim f = .ok g := by
  obtain ⟨f1, h1⟩ := setup_ok f
  have U := setup_spec hi.shape hi.noPhis h1
  have hlv : Live f1 f.next := .inr (.inr ⟨f.entry, by rw [U.allBbs]; exact hi.shape.entry, by rw [U.bodyE]; simp⟩)
  have hin1 : ∀ b ∈ rs, b ∈ f1.allBbs := by rw [U.allBbs]; exact hi.blocks
  have hl1 : ∀ b ∈ f1.allBbs, b ∈ f1.allBbs ∧ Leaves f1 b := by
    intro b hb
    refine ⟨hb, ?_⟩
    rw [U.allBbs] at hb
    rcases hl b hb with ⟨x, h2, h3⟩ | ⟨t, h2⟩
    · refine .inl ⟨x, ?_, by rw [U.insn x (lt_of_body hi.shape.tidy hb (List.mem_of_getLast? h2))]; exact h3⟩
      by_cases e : b = f.entry
      · rw [e] at h2 ⊢
        rw [U.bodyE]
        cases hc : f.body f.entry with
        | nil => rw [hc] at h2; cases h2
        | cons y ys => rw [hc] at h2; simpa using h2
      · rw [U.body b e]; exact h2
    · exact .inr ⟨t, by rw [U.succs]; exact h2⟩
  unfold insnCounter
  rw [h1, Out.ok_bind]
  cases acc
  · rw [if_neg (by simp)]
    exact addFast_ok rs U.shape hi.nodup (fun b hb => hl1 b (hin1 b hb)) hlv
  · rw [if_pos rfl]
    refine addAll_ok _ U.shape (critical_nodup rs f1) (fun b hb => ?_) hlv
    obtain ⟨c, hc, _, hp⟩ := mem_critical.1 hb
    exact hl1 b ((U.shape.graph.preds c (hin1 c hc)).2 b hp)

theorem bumpAll_ok {a : Nat} {lim : BitVec 32} : ∀ (xs : List Nat) {f : Fn}, Shape f → (xs.map f.parent).Nodup →
    (∀ x ∈ xs, f.parent x ∈ f.allBbs ∧ x ∈ f.body (f.parent x) ∧ isJmp (f.insn x).op = true) → Live f a → ∃ g, bumpAll a lim xs f = .ok g := by
  intro xs
  induction xs with
  | nil => intro f _ _ _ _; exact ⟨f, rfl⟩
  | cons x xs ih =>
    intro f hs hnd hin ha
    obtain ⟨h1, h2, h3⟩ := hin x (by simp)
    obtain ⟨g, hg⟩ := bump_ok (a := a) (v := const32 1) (lim := lim) hs h1 h2 h3
    obtain ⟨t, e, l, ad, s, j, O⟩ := bump_one hs h1 h2 h3 ha (by intro y; simp [const32]) hg
    have hnd' := List.nodup_cons.1 hnd
    have key : ∀ y ∈ xs, g.parent y = f.parent y ∧ f.parent y ∈ g.allBbs ∧ y ∈ g.body (f.parent y) ∧ isJmp (g.insn y).op = true := by
      intro y hy
      obtain ⟨k1, k2, k3⟩ := hin y (List.mem_cons_of_mem _ hy)
      have hne : f.parent y ≠ f.parent x := fun e => hnd'.1 (e ▸ List.mem_map.2 ⟨y, hy, rfl⟩)
      have hyb : y ∈ g.body (f.parent y) := by rw [O.body _ k1 hne]; exact k2
      exact ⟨O.shape.tidy.parent _ (O.sub _ k1) y hyb, O.sub _ k1, hyb, by rw [O.insn y (lt_of_body hs.tidy k1 k2)]; exact k3⟩
    have hmap : xs.map g.parent = xs.map f.parent := List.map_congr_left fun y hy => (key y hy).1
    obtain ⟨g', hg'⟩ := ih O.shape (by rw [hmap]; exact hnd'.2) (fun y hy => by
      obtain ⟨k1, k2, k3, k4⟩ := key y hy
      rw [k1]; exact ⟨k2, k3, k4⟩) (O.live ha)
    exact ⟨g', by simp only [bumpAll]; rw [hg, Out.ok_bind]; exact hg'⟩

theorem jmpComplexity_ok {rs : List Nat} {f : Fn} (hi : Input rs f) : ∃ g, jmpComplexity rs f = .ok g := by
  unfold jmpComplexity
  cases hj : jumps rs f with
  | nil => exact ⟨f, rfl⟩
  | cons x0 xs0 =>
    dsimp only
    rw [← hj]
    obtain ⟨f1, h1⟩ := setup_ok f
    have U := setup_spec hi.shape hi.noPhis h1
    have hl : Live f1 f.next := .inr (.inr ⟨f.entry, by rw [U.allBbs]; exact hi.shape.entry, by rw [U.bodyE]; simp⟩)
    rw [h1, Out.ok_bind]
    have hpar : ∀ x ∈ jumps rs f, f.parent x ∈ rs ∧ x ∈ f.body (f.parent x) ∧ isJmp (f.insn x).op = true := by
      intro x hx
      obtain ⟨b, hb, hxb, hxj⟩ := mem_jumps.1 hx
      rw [hi.shape.tidy.parent b (hi.blocks b hb) x hxb]
      exact ⟨hb, hxb, hxj⟩
    have key : ∀ x ∈ jumps rs f, f1.parent x = f.parent x ∧ f.parent x ∈ f1.allBbs ∧ x ∈ f1.body (f.parent x) ∧ isJmp (f1.insn x).op = true := by
      intro x hx
      obtain ⟨k1, k2, k3⟩ := hpar x hx
      have hm : f.parent x ∈ f1.allBbs := by rw [U.allBbs]; exact hi.blocks _ k1
      have hxb : x ∈ f1.body (f.parent x) := by
        by_cases e : f.parent x = f.entry
        · rw [e] at k2 ⊢; rw [U.bodyE]; simp [k2]
        · rw [U.body _ e]; exact k2
      exact ⟨U.shape.tidy.parent _ hm x hxb, hm, hxb, by rw [U.insn x (lt_of_body hi.shape.tidy (hi.blocks _ k1) k2)]; exact k3⟩
    have hmap : (jumps rs f).map f1.parent = (jumps rs f).map f.parent := List.map_congr_left fun y hy => (key y hy).1
    refine bumpAll_ok _ U.shape ?_ (fun x hx => by obtain ⟨k1, k2, k3, k4⟩ := key x hx; rw [k1]; exact ⟨k2, k3, k4⟩) hl
    rw [hmap, List.Nodup, List.pairwise_map]
    refine List.Pairwise.imp_of_mem ?_ (jumps_nodup hi.shape hi.nodup hi.blocks)
    intro x y hx hy hxy e
    obtain ⟨a1, a2, a3⟩ := hpar x hx
    obtain ⟨b1, b2, b3⟩ := hpar y hy
    rw [← e] at b2
    exact hxy (jump_unique hi.shape (hi.blocks _ a1) a2 b2 a3 b3)

end Verif.Count

namespace Verif.DivZero
open Verif Verif.IR Verif.Edit Verif.Guard

theorem addCheck_ok {f : Fn} {d p y : Nat} (hs : Shape f) (hd : InBody f d) (hp : prevInsn f d = some p) : ∃ g, addCheck f d p (.insn y) = .ok g := by
  obtain ⟨b, hb, hdb⟩ := hd
  have hpar := hs.tidy.parent b hb d hdb
  obtain ⟨A0, B, h1, h2, h3, h4⟩ := take_drop _ _ hdb
  have hA : ∃ A, A0 = A ++ [p] := by
    unfold prevInsn at hp
    rw [hpar, h3] at hp
    rw [List.getLast?_eq_some_iff] at hp
    exact hp
  obtain ⟨A, rfl⟩ := hA
  have hnd := hs.tidy.nodup b hb
  rw [h1] at hnd
  have hpA : p ∉ A := by
    have := (List.nodup_append.1 hnd).1
    exact fun hm => (List.nodup_append.1 this).2.2 p hm p (by simp) rfl
  have hpp := hs.tidy.parent b hb p (by rw [h1]; simp)
  obtain ⟨f1, e1⟩ := Count.split_ok (A := A) (x := d) (B := B) hpp hb (by rw [h1]; simp) hpA
  obtain ⟨f3, e3⟩ := Count.createAt_ok (createBb (newBb f1) mkThrow (freshBb f1) .back) (mkJbin .jeq .w64 (.insn y) (const32 0) (freshBb f) (freshBb f1)) p (.inr rfl)
  unfold addCheck
  rw [e1]
  dsimp only
  rw [e3]
  exact ⟨_, rfl⟩

theorem checkAll_ok : ∀ (ds : List Nat) {f : Fn}, Shape f → ds.Nodup → (∀ d ∈ ds, InBody f d ∧ (f.insn d).op = .div ∧ (f.insn d).vals.length = 2) → ∃ g, checkAll ds f = .ok g := by
  intro ds
  induction ds with
  | nil => intro f _ _ _; exact ⟨f, rfl⟩
  | cons d ds ih =>
    intro f hs hnd hin
    have hnd' := List.nodup_cons.1 hnd
    have hin' : ∀ x ∈ ds, InBody f x ∧ (f.insn x).op = .div ∧ (f.insn x).vals.length = 2 := fun x hx => hin x (List.mem_cons_of_mem _ hx)
    have hdl := hin d (by simp)
    obtain ⟨v, hv⟩ : ∃ v, (f.insn d).vals[1]? = some v := ⟨_, List.getElem?_eq_getElem (by rw [hdl.2.2]; omega)⟩
    have key : ∃ f1, checkDiv f d = .ok f1 ∧ Shape f1 ∧ ∀ x ∈ ds, InBody f1 x ∧ (f1.insn x).op = .div ∧ (f1.insn x).vals.length = 2 := by
      unfold checkDiv
      rw [hv]
      cases v with
      | const k c ct b => exact ⟨f, rfl, hs, hin'⟩
      | undef => exact ⟨f, rfl, hs, hin'⟩
      | insn y =>
        dsimp only
        cases hp : prevInsn f d with
        | none => exact ⟨f, rfl, hs, hin'⟩
        | some p =>
          dsimp only
          obtain ⟨f1, hc⟩ := addCheck_ok (y := y) hs hdl.1 hp
          obtain ⟨n, e, A, B, hl, G⟩ := addCheck_spec hs hdl.1 hp hc
          have hdp : d ∈ f.body (f.parent d) := by
            obtain ⟨c, hc, hdc⟩ := hdl.1
            rw [hs.tidy.parent c hc d hdc]; exact hdc
          have hh : (f.body (f.parent d)).head? ≠ some d := fun hh => by
            rw [(prev_none hdp).2 hh] at hp; cases hp
          have R1 : Result Lift.exWI f [d] f1 := result_one hs hdl.1 hv hdl.2.1 hh G
          refine ⟨f1, hc, R1.shape, fun x hx => ?_⟩
          obtain ⟨hx1, hx2⟩ := hin' x hx
          rw [R1.insn x (hs.tidy.lt x (.inr (.inr hx1)))]
          refine ⟨?_, hx2⟩
          obtain ⟨c, hc, hxc⟩ := hx1
          rcases (G.live (x := x)).2 (.inl (.inr (.inr ⟨c, hc, hxc⟩))) with h | h | h
          · exact absurd (h.trans G.sp) (hs.tidy.fixed c hc x hxc).1
          · exact absurd (G.args ▸ h) (hs.tidy.fixed c hc x hxc).2
          · exact h
    obtain ⟨f1, h1, h2, h3⟩ := key
    obtain ⟨g, hg⟩ := ih h2 hnd'.2 h3
    exact ⟨g, by simp only [checkAll]; rw [h1]; exact hg⟩

theorem divByZero_ok {rs : List Nat} {f : Fn} (hi : Input rs f) (hv : ∀ x, InBody f x → (f.insn x).op = .div → (f.insn x).vals.length = 2) : ∃ g, divByZero rs f = .ok g :=
  checkAll_ok _ hi.shape (divs_nodup hi) fun d hd => ⟨(divs_in hi d hd).1, (divs_in hi d hd).2, hv d (divs_in hi d hd).1 (divs_in hi d hd).2⟩

end Verif.DivZero
