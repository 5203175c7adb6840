import Verif.Live.Props
/-!
# The liveness and conflict analyses do not fail
-/
namespace Verif.Live
open Verif Verif.IR

/-- The values in the live sets satisfy `V`, and conflicts are between such a value and another instruction of the blocks that has a result. -/
structure Within (f : Fn) (dst : Nat → Option Nat) (V : Nat → Prop) (l : L) : Prop where
  inn : ∀ x, ∀ v ∈ l.inn x, V v
  out : ∀ x, ∀ v ∈ l.out x, V v
  reqs : ∀ q ∈ l.reqs, q.1 ≠ q.2 ∧ V q.1 ∧ ∃ b ∈ f.allBbs, ∃ s ∈ f.body b, dst s = some q.2

variable {f : Fn} {dst : Nat → Option Nat} {V : Nat → Prop}

theorem Within.marked {l : L} (h : Within f dst V l) (M : List Nat) : Within f dst V { l with M := M } := ⟨h.inn, h.out, h.reqs⟩

theorem insAt_within {g : Nat → List Nat} {s v : Nat} (hv : V v) (h : ∀ x, ∀ y ∈ g x, V y) : ∀ x, ∀ y ∈ insAt g s v x, V y := by
  intro x y hy
  rcases mem_insAt.1 hy with h1 | ⟨-, rfl⟩
  · exact h x y h1
  · exact hv

theorem walk_within {v b : Nat} (hv : V v) (hb : b ∈ f.allBbs) : ∀ (rev : List Nat) (l : L), (∀ s ∈ rev, s ∈ f.body b) → Within f dst V l → Within f dst V (walk dst v rev l).1
  | [], l, _, h => h
  | s :: pre, l, hs, h => by
    unfold walk
    dsimp only
    have h1 := insAt_within (s := s) hv h.out
    have h2 := insAt_within (s := s) hv h.inn
    cases hd : dst s with
    | none => exact walk_within hv hb pre _ (fun x hx => hs x (by simp [hx])) ⟨h2, h1, h.reqs⟩
    | some d =>
      dsimp only
      split
      · exact ⟨h.inn, h1, h.reqs⟩
      · rename_i hne
        refine walk_within hv hb pre _ (fun x hx => hs x (by simp [hx])) ⟨h2, h1, fun q hq => ?_⟩
        rcases List.mem_append.1 hq with hq | hq
        · exact h.reqs q hq
        · rw [List.mem_singleton.1 hq]
          exact ⟨fun e => hne e.symm, hv, b, hb, s, hs s (by simp), hd⟩

theorem each_inv {α : Type} {g : α → L → Out L} {I : L → Prop} : ∀ {as : List α} {l l' : L}, I l → (∀ a ∈ as, ∀ l l', I l → g a l = .ok l' → I l') → each g as l = .ok l' → I l'
  | [], l, l', hl, _, e => by cases e; exact hl
  | a :: as, l, l', hl, h, e => by
    unfold each at e
    obtain ⟨l1, e1, e2⟩ := Out.bind_eq_ok.1 e
    exact each_inv (h a (by simp) l l1 hl e1) (fun x hx => h x (by simp [hx])) e2

theorem outBlock_within (hp : ∀ b ∈ f.allBbs, ∀ p ∈ f.preds b, p ∈ f.allBbs) {v : Nat} (hv : V v) : ∀ (k n : Nat) (l l' : L), n ∈ f.allBbs → outBlock f dst v k n l = .ok l' →
    Within f dst V l → Within f dst V l'
  | 0, n, l, l', hn, e, h => by cases e
  | k + 1, n, l, l', hn, e, h => by
    unfold outBlock at e
    split at e
    · cases e; exact h
    · dsimp only at e
      have hw := walk_within (dst := dst) hv hn (f.body n).reverse { l with M := n :: l.M } (fun s hs => List.mem_reverse.1 hs) (h.marked _)
      split at e
      · exact each_inv hw (fun p hpn l l' hl e => outBlock_within hp hv k p l l' (hp n hn p hpn) e hl) e
      · cases e; exact hw

theorem user_within {R : List Nat} (hc : Closed f R) {v s : Nat} (hvR : v ∈ insns f R) (hs : s ∈ f.users v) (hv : V v) {l l' : L} (e : user f dst v s l = .ok l') (h : Within f dst V l) :
    Within f dst V l' := by
  unfold user at e
  split at e
  · rename_i hp
    split at e
    · cases e
    · exact each_inv h (fun b hb l l' hl e => outBlock_within hc.preds hv _ b l l' ((hc.phis v hvR s hs hp).2 b hb) e hl) e
  · unfold inStmt at e
    dsimp only at e
    have hp := hc.users v hvR s hs
    have hw := walk_within (dst := dst) hv hp (before f s) { l with inn := insAt l.inn s v } (fun x hx => by
      unfold before at hx
      exact (List.takeWhile_sublist _).subset (List.mem_reverse.1 hx)) ⟨insAt_within hv h.inn, h.out, h.reqs⟩
    split at e
    · exact each_inv hw (fun b hb l l' hl e => outBlock_within hc.preds hv _ b l l' (hc.preds _ hp b hb) e hl) e
    · cases e; exact hw

theorem liveness_within {R : List Nat} (hc : Closed f R) {fin : Nat → Bool} (hV : ∀ v ∈ insns f R, fin v = false → dst v ≠ none → V v) {l : L} (e : liveness f R dst fin = .ok l) :
    Within f dst V l := by
  unfold liveness at e
  refine each_inv (I := Within f dst V) ⟨fun x v hv => (by cases hv), fun x v hv => (by cases hv), fun q hq => (by cases hq)⟩ (fun v hv l l' hl e => ?_) e
  unfold value at e
  split at e
  · cases e; exact hl
  · rename_i d hd
    split at e
    · cases e; exact hl
    · rename_i hf
      split at e
      · cases e
      · exact each_inv (hl.marked []) (fun s hs l l' hl e => user_within hc hv hs (hV v hv (by simpa using hf) (by rw [hd]; simp)) e hl) e

theorem liveness_total {R : List Nat} (hc : Closed f R) (hd : ∀ x d, dst x = some d → d = x) (fin : Nat → Bool) : ∃ l, liveness f R dst fin = .ok l := by
  obtain ⟨l, h, _⟩ := each_ends (I := fun _ => True) (as := insns f R) (g := value f dst fin) (l := L.empty) trivial
    (fun v hv l _ => by
      obtain ⟨l', h⟩ := value_ends (fin := fin) hc hv (hd v) l
      exact ⟨l', h, trivial⟩)
  exact ⟨l, h⟩

/-! ## Conflicts -/

theorem foldl_total {α : Type} {g : α → Out (List (Nat × Nat))} {Q : Nat × Nat → Prop} : ∀ {xs : List α} {c0 : List (Nat × Nat)}, (∀ q ∈ c0, Q q) →
    (∀ x ∈ xs, ∃ b, g x = .ok b ∧ ∀ q ∈ b, Q q) → ∃ c : List (Nat × Nat), xs.foldl (fun (acc : Out (List (Nat × Nat))) x => do
      let a ← acc
      let b ← g x
      .ok (a ++ b)) (.ok c0) = .ok c ∧ ∀ q ∈ c, Q q
  | [], c0, h0, _ => ⟨c0, rfl, h0⟩
  | x :: xs, c0, h0, h => by
    obtain ⟨b, e, hb⟩ := h x (by simp)
    rw [List.foldl_cons, Out.ok_bind, e, Out.ok_bind]
    exact foldl_total (fun q hq => (List.mem_append.1 hq).elim (h0 q) (hb q)) (fun y hy => h y (by simp [hy]))

/-- Going back through empty blocks ends: each block is behind the empty one before it. -/
structure Falling (f : Fn) (rk : Nat → Nat) : Prop where
  lt : ∀ b ∈ f.allBbs, rk b < f.allBbs.length
  back : ∀ b ∈ f.allBbs, ∀ p ∈ f.preds b, f.body p = [] → rk p < rk b

theorem phiConf_total (hp : ∀ b ∈ f.allBbs, ∀ p ∈ f.preds b, p ∈ f.allBbs) {rk : Nat → Nat} (hr : Falling f rk) {l : L} (hl : Within f dst V l) (v : Nat) : ∀ (k n : Nat), n ∈ f.allBbs →
    (if f.body n = [] then rk n + 2 ≤ k else 1 ≤ k) → ∃ c, phiConf f l v k n = .ok c ∧ ∀ q ∈ c, q.1 ≠ v ∧ q.2 = v ∧ V q.1
  | 0, n, hn, hk => by split at hk <;> omega
  | k + 1, n, hn, hk => by
    unfold phiConf
    cases hb : (f.body n).getLast? with
    | some last =>
      refine ⟨_, rfl, fun q hq => ?_⟩
      obtain ⟨x, hx, rfl⟩ := List.mem_map.1 hq
      obtain ⟨h1, h2⟩ := List.mem_filter.1 hx
      refine ⟨by simpa using h2, rfl, ?_⟩
      split at h1
      · exact hl.inn _ _ h1
      · exact hl.out _ _ h1
    | none =>
      have he : f.body n = [] := List.getLast?_eq_none_iff.1 hb
      rw [if_pos he] at hk
      dsimp only
      refine foldl_total (c0 := []) (g := phiConf f l v k) (by simp) (fun p hpn => phiConf_total hp hr hl v k p (hp n hn p hpn) ?_)
      split
      · rename_i hpe
        have := hr.back n hn p hpn hpe
        omega
      · omega

theorem phiReqs_total (hp : ∀ b ∈ f.allBbs, ∀ p ∈ f.preds b, p ∈ f.allBbs) {rk : Nat → Nat} (hr : Falling f rk) {l : L} (hl : Within f dst V l) {x : Nat}
    (hx : (f.insn x).op = .phi → ∀ o ∈ (f.insn x).phi, o.1 ∈ f.allBbs) : ∃ c, phiReqs f l x = .ok c ∧ ∀ q ∈ c, (f.insn x).op = .phi ∧ q.1 ≠ x ∧ q.2 = x ∧ V q.1 := by
  unfold phiReqs
  split
  · rename_i ho
    have := foldl_total (Q := fun q => q.1 ≠ x ∧ q.2 = x ∧ V q.1) (xs := (f.insn x).phi) (g := fun o : Nat × Val => phiConf f l x (depth f) o.1) (c0 := []) (by simp) (fun o hm => phiConf_total hp hr hl x (depth f) o.1 (hx ho o hm) (by
      have := hr.lt o.1 (hx ho o hm)
      unfold depth
      split <;> omega))
    obtain ⟨c, e, hc⟩ := this
    exact ⟨c, e, fun q hq => ⟨ho, hc q hq⟩⟩
  · exact ⟨[], rfl, by simp⟩

/-- The conflicts are found, and are between the values one expects. -/
theorem conflictReqs_total (hp : ∀ b ∈ f.allBbs, ∀ p ∈ f.preds b, p ∈ f.allBbs) {rk : Nat → Nat} (hr : Falling f rk) {l : L} (hl : Within f dst V l) {R : List Nat} {s : RA.St} {Q : Nat × Nat → Prop}
    (hx : ∀ x ∈ insns f R, (f.insn x).op = .phi → ∀ o ∈ (f.insn x).phi, o.1 ∈ f.allBbs) (q1 : ∀ q ∈ RA.regPairs s, Q q)
    (q2 : ∀ x ∈ insns f R, (f.insn x).op = .phi → ∀ v, V v → v ≠ x → Q (v, x)) (q3 : ∀ v, V v → ∀ i, i < 6 → Q (s.regs i, v)) (q4 : ∀ x ∈ insns f R, ∀ q ∈ aluReqs f x, Q q) :
    ∃ c, conflictReqs f s R l = .ok c ∧ ∀ q ∈ c, Q q := by
  unfold conflictReqs
  refine foldl_total (g := insnConf f s l) q1 (fun x hxR => ?_)
  obtain ⟨c, e, hc⟩ := phiReqs_total hp hr hl (hx x hxR)
  unfold insnConf
  rw [e, Out.ok_bind]
  refine ⟨_, rfl, fun q hq => ?_⟩
  simp only [List.mem_append] at hq
  rcases hq with (hq | hq) | hq
  · obtain ⟨h0, h1, h2, h3⟩ := hc q hq
    have : q = (q.1, x) := by rw [← h2]
    rw [this]
    exact q2 x hxR h0 _ h3 h1
  · unfold callReqs at hq
    split at hq
    · obtain ⟨v, hv, hm⟩ := List.mem_flatMap.1 hq
      obtain ⟨i, hi, rfl⟩ := List.mem_map.1 hm
      exact q3 v (hl.inn _ _ (List.mem_filter.1 hv).1) i (List.mem_range.1 hi)
    · cases hq
  · exact q4 x hxR q hq

theorem conflicts_total : ∀ {l : List (Nat × Nat)} {s : RA.St}, (∀ q ∈ l, q.1 ≠ q.2 ∧ (∃ r, RA.rep s q.1 = .ok r) ∧ ∃ r, RA.rep s q.2 = .ok r) → ∃ s', RA.conflicts l s = .ok s'
  | [], s, _ => ⟨s, rfl⟩
  | (a, b) :: l, s, h => by
    obtain ⟨h1, ⟨r1, h2⟩, r2, h3⟩ := h (a, b) (by simp)
    dsimp only at h1 h2 h3
    have : ∃ s', RA.makeConflict s a b = .ok s' := by
      unfold RA.makeConflict
      rw [if_neg h1, h2, h3]
      cases r1 <;> cases r2 <;> exact ⟨_, rfl⟩
    obtain ⟨s1, e⟩ := this
    have hs := RA.makeConflict_same e
    have hrep : ∀ x, RA.rep s1 x = RA.rep s x := fun x => by unfold RA.rep; dsimp only; rw [hs.pos, hs.fin, hs.regs]
    unfold RA.conflicts
    rw [e, Out.ok_bind]
    exact conflicts_total (fun q hq => by rw [hrep, hrep]; exact h q (by simp [hq]))

/-- The neighbours in the graph are the vertices of the values in the requests. -/
theorem conflicts_within {S : Nat → Prop} : ∀ {l : List (Nat × Nat)} {s s' : RA.St}, RA.conflicts l s = .ok s' →
    (∀ q ∈ l, ∀ r, RA.rep s q.1 = .ok (some r) ∨ RA.rep s q.2 = .ok (some r) → S r) → (∀ u, ∀ v ∈ (s.cg u).adj, S v) → ∀ u, ∀ v ∈ (s'.cg u).adj, S v
  | [], s, s', e, _, h => by cases e; exact h
  | (a, b) :: l, s, s', e, hq, h => by
    obtain ⟨s1, e1, e2⟩ := Out.bind_eq_ok.1 e
    have hs := RA.makeConflict_same e1
    have hrep : ∀ x, RA.rep s1 x = RA.rep s x := fun x => by unfold RA.rep; dsimp only; rw [hs.pos, hs.fin, hs.regs]
    refine conflicts_within e2 (fun q hm r => ?_) ?_
    · rw [hrep, hrep]
      exact hq q (by simp [hm]) r
    · intro u v hv
      rcases (RA.makeConflict_ok e1).2 with ⟨-, rfl⟩ | ⟨_, -, -, rfl⟩ | ⟨r1, r2, h1, h2, rfl⟩
      · exact h u v hv
      · exact h u v hv
      · rw [RA.addEdge_adj] at hv
        rcases hv with hv | ⟨-, rfl⟩ | ⟨-, rfl⟩
        · exact h u v hv
        · exact hq (a, b) (by simp) _ (.inr h2)
        · exact hq (a, b) (by simp) _ (.inl h1)

end Verif.Live
