import Verif.RA.Lemmas
/-!
# Lemmas about the elimination order and the choice of values to spill
-/
namespace Verif.RA
open Verif

theorem pickMax_some {key : Nat → Nat} {ok : Nat → Bool} : ∀ {l : List Nat} {acc : Nat × Option Nat} {v : Nat},
    (pickMax key ok l acc).2 = some v → acc.2 = some v ∨ (v ∈ l ∧ ok v = true)
  | [], acc, v, h => Or.inl h
  | x :: l, acc, v, h => by
    rcases pickMax_some (l := l) h with h1 | h1
    · split at h1
      · rename_i hc
        simp only [Option.some.injEq] at h1
        subst h1
        exact Or.inr ⟨by simp, by simp at hc; exact hc.1⟩
      · exact Or.inl h1
    · exact Or.inr ⟨by simp [h1.1], h1.2⟩

theorem pickMax_keeps {key : Nat → Nat} {ok : Nat → Bool} : ∀ {l : List Nat} {acc : Nat × Option Nat},
    acc.2 ≠ none → (pickMax key ok l acc).2 ≠ none
  | [], _, h => h
  | x :: l, acc, h => by
    refine pickMax_keeps (l := l) ?_
    split
    · simp
    · exact h

theorem pickMax_none {key : Nat → Nat} {ok : Nat → Bool} : ∀ {l : List Nat},
    (pickMax key ok l (0, none)).2 = none → ∀ v ∈ l, ok v = false
  | [], _ => by simp
  | x :: l, h => by
    cases hx : ok x with
    | true =>
      exfalso
      refine pickMax_keeps (l := l) ?_ h
      simp [hx]
    | false =>
      intro v hv
      rcases List.mem_cons.1 hv with rfl | hv
      · exact hx
      · refine pickMax_none (key := key) (l := l) ?_ v hv
        simpa [pickMax, hx] using h

/-! ## Maximum cardinality search -/

/-- Everything but the counters and the order is the same. -/
structure SameGraph (s s' : St) : Prop where
  regs : s'.regs = s.regs
  allVar : s'.allVar = s.allVar
  pos : ∀ v, (s'.cg v).pos = (s.cg v).pos
  fin : ∀ v, (s'.cg v).fin = (s.cg v).fin
  nonvr : ∀ v, (s'.cg v).nonvr = (s.cg v).nonvr
  adj : ∀ v, (s'.cg v).adj = (s.cg v).adj

theorem SameGraph.rfl' (s : St) : SameGraph s s :=
  ⟨rfl, rfl, fun _ => rfl, fun _ => rfl, fun _ => rfl, fun _ => rfl⟩

theorem SameGraph.trans {a b c : St} (h : SameGraph a b) (k : SameGraph b c) : SameGraph a c :=
  ⟨k.regs.trans h.regs, k.allVar.trans h.allVar, fun v => (k.pos v).trans (h.pos v),
    fun v => (k.fin v).trans (h.fin v), fun v => (k.nonvr v).trans (h.nonvr v), fun v => (k.adj v).trans (h.adj v)⟩

theorem SameGraph.seo (s : St) (o : List Nat) : SameGraph s { s with seo := o } :=
  ⟨rfl, rfl, fun _ => rfl, fun _ => rfl, fun _ => rfl, fun _ => rfl⟩

theorem bumpLambda_same {rest : List Nat} : ∀ (l : List Nat) (s : St),
    SameGraph s (bumpLambda rest l s) ∧ (bumpLambda rest l s).seo = s.seo
  | [], s => ⟨.rfl' s, rfl⟩
  | u :: l, s => by
    unfold bumpLambda
    split
    · obtain ⟨h1, h2⟩ := bumpLambda_same (rest := rest) l (s.upd u (fun e => { e with lambda := e.lambda + 1 }))
      refine ⟨SameGraph.trans ?_ h1, h2⟩
      refine ⟨rfl, rfl, ?_, ?_, ?_, ?_⟩ <;> intro v <;> simp only [upd_cg] <;> split <;> rfl
    · exact bumpLambda_same l s

theorem filter_ne_perm {l : List Nat} (hn : l.Nodup) {v : Nat} (hv : v ∈ l) :
    (v :: l.filter (· ≠ v)).Perm l := by
  induction l with
  | nil => simp at hv
  | cons a l ih =>
    rw [List.nodup_cons] at hn
    by_cases e : a = v
    · subst e
      have : (l.filter (· ≠ a)) = l := by
        rw [List.filter_eq_self]
        intro b hb
        have : b ≠ a := fun e => hn.1 (e ▸ hb)
        simp [this]
      simp only [ne_eq, decide_not, decide_true, Bool.not_true, Bool.false_eq_true, not_false_eq_true,
        List.filter_cons_of_neg]
      simp only [ne_eq, decide_not] at this
      rw [this]
    · have hv' : v ∈ l := by
        rcases List.mem_cons.1 hv with h | h
        · exact absurd h.symm e
        · exact h
      have := ih hn.2 hv'
      rw [List.filter_cons_of_pos (by simp [e])]
      exact (List.Perm.swap a v _).trans (this.cons a)

theorem mcsLoop_ok : ∀ (n : Nat) (rest : List Nat) (s : St), rest.length = n → rest.Nodup →
    ∃ s' o, mcsLoop n rest s = .ok s' ∧ SameGraph s s' ∧ s'.seo = s.seo ++ o ∧ o.Perm rest
  | 0, rest, s, hl, _ => by
    have : rest = [] := List.length_eq_zero_iff.1 hl
    subst this
    exact ⟨s, [], rfl, .rfl' s, by simp, .nil⟩
  | n + 1, rest, s, hl, hn => by
    unfold mcsLoop
    split
    · rename_i h
      have := pickMax_none h
      cases rest with
      | nil => simp at hl
      | cons a l => have := this a (by simp); simp at this
    · rename_i v h
      have hv : v ∈ rest := by
        rcases pickMax_some h with h1 | h1
        · cases h1
        · exact h1.1
      have hp := filter_ne_perm hn hv
      have hlen : (rest.filter (· ≠ v)).length = n := by
        have := hp.length_eq
        simp only [List.length_cons] at this
        omega
      obtain ⟨h1, h2⟩ := bumpLambda_same (rest := rest) (({ s with seo := s.seo ++ [v] } : St).cg v).adj
        { s with seo := s.seo ++ [v] }
      obtain ⟨s', o, k1, k2, k3, k4⟩ := mcsLoop_ok n (rest.filter (· ≠ v))
        (bumpLambda rest (({ s with seo := s.seo ++ [v] } : St).cg v).adj { s with seo := s.seo ++ [v] }) hlen
        (hn.filter _)
      refine ⟨s', v :: o, k1, ((SameGraph.seo s _).trans h1).trans k2, ?_, (k4.cons v).trans hp⟩
      rw [k3, h2]
      simp

theorem mcs_ok {s : St} (hn : s.allVar.Nodup) :
    ∃ s', mcs s = .ok s' ∧ SameGraph s s' ∧ s'.seo.Perm s.allVar := by
  obtain ⟨s', o, h1, h2, h3, h4⟩ := mcsLoop_ok s.allVar.length s.allVar { s with seo := [] } rfl hn
  refine ⟨s', h1, (SameGraph.seo s _).trans h2, ?_⟩
  rw [h3]
  simpa using h4

/-! ## Cliques -/

theorem clique_fold (earlier : List Nat) : ∀ (l q : List Nat) (x : Nat),
    (x ∈ l.foldl (fun q u => if u ∈ earlier then ins q u else q) q ↔ x ∈ q ∨ (x ∈ l ∧ x ∈ earlier)) ∧
    (q.Nodup → (l.foldl (fun q u => if u ∈ earlier then ins q u else q) q).Nodup)
  | [], q, x => by simp
  | a :: l, q, x => by
    simp only [List.foldl_cons]
    by_cases ha : a ∈ earlier
    · rw [if_pos ha]
      obtain ⟨h1, h2⟩ := clique_fold earlier l (ins q a) x
      refine ⟨?_, fun hq => h2 (ins_nodup hq a)⟩
      rw [h1, mem_ins, List.mem_cons]
      constructor
      · rintro ((h | rfl) | ⟨h, k⟩)
        · exact Or.inl h
        · exact Or.inr ⟨Or.inl rfl, ha⟩
        · exact Or.inr ⟨Or.inr h, k⟩
      · rintro (h | ⟨rfl | h, k⟩)
        · exact Or.inl (Or.inl h)
        · exact Or.inl (Or.inr rfl)
        · exact Or.inr ⟨h, k⟩
    · rw [if_neg ha]
      obtain ⟨h1, h2⟩ := clique_fold earlier l q x
      refine ⟨?_, h2⟩
      rw [h1, List.mem_cons]
      constructor
      · rintro (h | ⟨h, k⟩)
        · exact Or.inl h
        · exact Or.inr ⟨Or.inr h, k⟩
      · rintro (h | ⟨rfl | h, k⟩)
        · exact Or.inl h
        · exact absurd k ha
        · exact Or.inr ⟨h, k⟩

theorem mem_clique {s : St} {earlier : List Nat} {v x : Nat} :
    x ∈ clique s earlier v ↔ x = v ∨ (x ∈ (s.cg v).adj ∧ x ∈ earlier) := by
  unfold clique
  rw [(clique_fold earlier _ _ x).1]
  simp

theorem clique_nodup (s : St) (earlier : List Nat) (v : Nat) : (clique s earlier v).Nodup :=
  (clique_fold earlier _ _ 0).2 (by simp)

theorem bumpW_fold (earlier : List Nat) : ∀ (l : List Nat) (s : St),
    SameGraph s (l.foldl (fun s u => if u ∈ earlier then s.upd u (fun e => { e with w := e.w + 1 }) else s) s) ∧
    (l.foldl (fun s u => if u ∈ earlier then s.upd u (fun e => { e with w := e.w + 1 }) else s) s).seo = s.seo
  | [], s => ⟨.rfl' s, rfl⟩
  | a :: l, s => by
    simp only [List.foldl_cons]
    split
    · obtain ⟨h1, h2⟩ := bumpW_fold earlier l (s.upd a (fun e => { e with w := e.w + 1 }))
      refine ⟨SameGraph.trans ?_ h1, h2⟩
      refine ⟨rfl, rfl, ?_, ?_, ?_, ?_⟩ <;> intro v <;> simp only [upd_cg] <;> split <;> rfl
    · exact bumpW_fold earlier l s

theorem bumpW_same (s : St) (earlier : List Nat) (v : Nat) :
    SameGraph s (bumpW s earlier v) ∧ (bumpW s earlier v).seo = s.seo := by
  unfold bumpW
  obtain ⟨h1, h2⟩ := bumpW_fold earlier (s.cg v).adj (s.upd v (fun e => { e with w := e.w + 1 }))
  refine ⟨SameGraph.trans ?_ h1, h2⟩
  refine ⟨rfl, rfl, ?_, ?_, ?_, ?_⟩ <;> intro x <;> simp only [upd_cg] <;> split <;> rfl

theorem clique_same {s s' : St} (h : SameGraph s s') (e : List Nat) (v : Nat) : clique s' e v = clique s e v := by
  simp only [clique, h.adj]

theorem cliques_ok : ∀ (l earlier : List Nat) (s : St),
    SameGraph s (cliques earlier l s).1 ∧ (cliques earlier l s).1.seo = s.seo ∧
    (∀ pre v post, l = pre ++ v :: post → clique s (earlier ++ pre) v ∈ (cliques earlier l s).2) ∧
    (∀ q ∈ (cliques earlier l s).2, q.Nodup ∧ ∀ x ∈ q, x ∈ earlier ∨ x ∈ l)
  | [], earlier, s => ⟨.rfl' s, rfl, by simp, by simp [cliques]⟩
  | v :: l, earlier, s => by
    obtain ⟨b1, b2⟩ := bumpW_same s earlier v
    obtain ⟨h1, h2, h3, h4⟩ := cliques_ok l (earlier ++ [v]) (bumpW s earlier v)
    refine ⟨b1.trans h1, h2.trans b2, ?_, ?_⟩
    · intro pre x post e
      cases pre with
      | nil =>
        simp only [List.nil_append, List.cons.injEq] at e
        obtain ⟨rfl, rfl⟩ := e
        simp [cliques]
      | cons a pre =>
        simp only [List.cons_append, List.cons.injEq] at e
        obtain ⟨rfl, e⟩ := e
        have := h3 pre x post e
        rw [clique_same b1] at this
        simp only [List.append_assoc, List.singleton_append] at this
        exact List.mem_cons_of_mem _ this
    · intro q hq
      rcases List.mem_cons.1 hq with rfl | hq
      · refine ⟨clique_nodup _ _ _, ?_⟩
        intro x hx
        rcases mem_clique.1 hx with rfl | ⟨_, hx⟩
        · exact Or.inr (by simp)
        · exact Or.inl hx
      · obtain ⟨k1, k2⟩ := h4 q hq
        refine ⟨k1, ?_⟩
        intro x hx
        rcases k2 x hx with h | h
        · rcases List.mem_append.1 h with h | h
          · exact Or.inl h
          · simp only [List.mem_singleton] at h
            exact Or.inr (by simp [h])
        · exact Or.inr (by simp [h])

theorem sum_filter_le (v : Nat) : ∀ (eps : List (List Nat)),
    ((eps.map (·.filter (· ≠ v))).map List.length).sum ≤ (eps.map List.length).sum
  | [] => by simp
  | q :: eps => by
    have := sum_filter_le v eps
    have h := List.length_filter_le (fun x => decide (x ≠ v)) q
    simp only [List.map_cons, List.sum_cons]
    omega

theorem sum_filter_lt {v : Nat} : ∀ {eps : List (List Nat)} {cur : List Nat}, cur ∈ eps → v ∈ cur →
    ((eps.map (·.filter (· ≠ v))).map List.length).sum < (eps.map List.length).sum
  | q :: eps, cur, hc, hv => by
    simp only [List.map_cons, List.sum_cons]
    rcases List.mem_cons.1 hc with rfl | hc
    · have := sum_filter_le v eps
      have h : (cur.filter (fun x => decide (x ≠ v))).length < cur.length := by
        rw [List.length_filter_lt_length_iff_exists]
        exact ⟨v, hv, by simp⟩
      omega
    · have := sum_filter_lt hc hv
      have h := List.length_filter_le (fun x => decide (x ≠ v)) q
      omega

theorem filter_filter_ne (v : Nat) (r q : List Nat) :
    (q.filter (· ≠ v)).filter (· ∉ r) = q.filter (· ∉ v :: r) := by
  rw [List.filter_filter]
  apply List.filter_congr
  intro x _
  by_cases h1 : x = v <;> by_cases h2 : x ∈ r <;> simp [h1, h2]

/-- The spill loop ends, chooses no machine register, and leaves no clique with more members than registers. -/
theorem spillLoop_ok {s : St} : ∀ (fuel : Nat) (eps : List (List Nat)),
    (eps.map List.length).sum ≤ fuel → (∀ q ∈ eps, q.Nodup) →
    (∀ q ∈ eps, ∀ x ∈ q, (s.cg x).nonvr = true → ∃ i, i < colors ∧ x = s.regs i) →
    ∃ l, spillLoop s fuel eps = .ok l ∧ (∀ v ∈ l, (s.cg v).nonvr = false ∧ ∃ q ∈ eps, v ∈ q) ∧
      ∀ q ∈ eps, (q.filter (· ∉ l)).length ≤ colors
  | fuel, eps, hf, hn, hr => by
    unfold spillLoop
    split
    · rename_i h
      refine ⟨[], rfl, by simp, ?_⟩
      intro q hq
      rw [List.find?_eq_none] at h
      have := h q hq
      simp only [decide_eq_true_eq, Nat.not_lt] at this
      exact Nat.le_trans (List.length_filter_le _ _) this
    · rename_i cur h
      have hc := List.mem_of_find?_eq_some h
      have hlen : colors < cur.length := by simpa using List.find?_some h
      split
      · exfalso
        have : ∃ v, v ∈ cur := by
          cases cur with
          | nil => simp at hlen
          | cons a _ => exact ⟨a, by simp⟩
        obtain ⟨v, hv⟩ := this
        have := sum_filter_lt hc hv
        omega
      · rename_i fuel
        split
        · rename_i hp
          exfalso
          have hall := pickMax_none hp
          have hsub : cur ⊆ (List.range colors).map s.regs := by
            intro x hx
            have := hall x hx
            simp only [Bool.not_eq_false'] at this
            obtain ⟨i, hi, rfl⟩ := hr cur hc x hx this
            exact List.mem_map.2 ⟨i, List.mem_range.2 hi, rfl⟩
          have := List.Nodup.length_le_of_subset (hn cur hc) hsub
          simp at this
          omega
        · rename_i v hp
          rcases pickMax_some hp with h1 | ⟨hv, hnv⟩
          · cases h1
          have hlt := sum_filter_lt hc hv
          obtain ⟨l, k1, k2, k3⟩ := spillLoop_ok fuel (eps.map (·.filter (· ≠ v))) (by omega)
            (by
              intro q hq
              obtain ⟨q', hq', rfl⟩ := List.mem_map.1 hq
              exact (hn q' hq').filter _)
            (by
              intro q hq x hx
              obtain ⟨q', hq', rfl⟩ := List.mem_map.1 hq
              exact hr q' hq' x ((List.mem_filter.1 hx).1))
          refine ⟨v :: l, ?_, ?_, ?_⟩
          · rw [k1]; rfl
          · intro x hx
            rcases List.mem_cons.1 hx with rfl | hx
            · exact ⟨by simpa using hnv, cur, hc, hv⟩
            · obtain ⟨h3, q, hq, hxq⟩ := k2 x hx
              obtain ⟨q', hq', rfl⟩ := List.mem_map.1 hq
              exact ⟨h3, q', hq', (List.mem_filter.1 hxq).1⟩
          · intro q hq
            have := k3 _ (List.mem_map.2 ⟨q, hq, rfl⟩)
            rw [filter_filter_ne] at this
            exact this
  termination_by fuel => fuel

theorem preSpillAlong_ok {s : St} (hr : ∀ v ∈ s.seo, (s.cg v).nonvr = true → ∃ i, i < colors ∧ v = s.regs i) :
    ∃ s' l, preSpillAlong s = .ok (s', l) ∧ SameGraph s s' ∧ s'.seo = s.seo ∧
      (∀ v ∈ l, (s.cg v).nonvr = false ∧ v ∈ s.seo) ∧
      ∀ pre v post, s.seo = pre ++ v :: post → ((clique s pre v).filter (· ∉ l)).length ≤ colors := by
  obtain ⟨h1, h2, h3, h4⟩ := cliques_ok s.seo [] s
  have hm : ∀ q ∈ (cliques [] s.seo s).2, ∀ x ∈ q, x ∈ s.seo := by
    intro q hq x hx
    rcases (h4 q hq).2 x hx with h | h
    · simp at h
    · exact h
  obtain ⟨l, k1, k2, k3⟩ := spillLoop_ok (s := (cliques [] s.seo s).1) _ (cliques [] s.seo s).2 (Nat.le_refl _)
    (fun q hq => (h4 q hq).1)
    (by
      intro q hq x hx hnv
      rw [h1.nonvr] at hnv
      rw [h1.regs]
      exact hr x (hm q hq x hx) hnv)
  refine ⟨(cliques [] s.seo s).1, l, ?_, h1, h2, ?_, ?_⟩
  · unfold preSpillAlong
    dsimp only
    rw [k1]
  · intro v hv
    obtain ⟨h5, q, hq, hx⟩ := k2 v hv
    exact ⟨by rw [← h1.nonvr]; exact h5, hm q hq v hx⟩
  · intro pre v post e
    have := h3 pre v post e
    rw [List.nil_append] at this
    exact k3 _ this

end Verif.RA
