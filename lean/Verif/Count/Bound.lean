import Verif.Count.Core
import Mathlib.Data.List.Nodup
import Mathlib.Data.List.Perm.Subperm
/-!
# Counters in all cycles bound every execution
-/
namespace Verif.Count
open Verif Verif.IR Verif.Edit Verif.Guard
set_option linter.unusedSimpArgs false

/-- `B` follows the edges of the graph. -/
def Linked (h : Fn) (B : List Nat) : Prop := ∀ p q, [p, q] <:+: B → q ∈ h.succs p

theorem linked_snoc {h : Fn} {B : List Nat} {c c1 : Nat} (hl : Linked h B) (hc : B.getLast? = some c) (h1 : c1 ∈ h.succs c) : Linked h (B ++ [c1]) := by
  rintro p q ⟨u, v, e⟩
  rcases List.eq_nil_or_concat v with rfl | ⟨v, w, rfl⟩
  · have : (u ++ [p]) ++ [q] = B ++ [c1] := by simpa using e
    obtain ⟨h2, h3⟩ := List.append_inj' this rfl
    cases h3
    rw [← h2] at hc
    simp at hc
    rw [hc]; exact h1
  · have : (u ++ [p, q] ++ v) ++ [w] = B ++ [c1] := by simpa using e
    obtain ⟨h2, _⟩ := List.append_inj' this rfl
    exact hl p q ⟨u, v, h2⟩

theorem pred_in {l : List Nat} : ∀ {x c : Nat}, c ∈ l → ∃ p ∈ x :: l.dropLast, [p, c] <:+: x :: l := by
  induction l with
  | nil => intro x c h; cases h
  | cons y l ih =>
    intro x c h
    rcases List.mem_cons.1 h with rfl | h
    · exact ⟨x, by simp, [], l, by simp⟩
    · obtain ⟨p, hp, u, v, e⟩ := ih (x := y) h
      refine ⟨p, ?_, x :: u, v, by simpa using e⟩
      cases l with
      | nil => cases h
      | cons z l => exact List.mem_cons_of_mem _ (by simpa using hp)

/-- A list where a thing comes twice. -/
theorem dup_split {l : List Nat} (h : ¬ l.Nodup) : ∃ u x v z, l = u ++ x :: (v ++ x :: z) := by
  induction l with
  | nil => simp at h
  | cons a l ih =>
    by_cases ha : a ∈ l
    · obtain ⟨s, t, rfl⟩ := List.append_of_mem ha
      exact ⟨[], a, s, t, rfl⟩
    · have : ¬ l.Nodup := fun hn => h (List.nodup_cons.2 ⟨ha, hn⟩)
      obtain ⟨u, x, v, z, rfl⟩ := ih this
      exact ⟨a :: u, x, v, z, rfl⟩

/-- Without a block of `bs`, no block comes twice. -/
theorem window {h : Fn} {bs B w : List Nat} (hs : Shape h) (hcy : ∀ C, Cyclic h C → (∀ c ∈ C, Conn h c) → ∃ c ∈ C, c ∈ bs) (hl : Linked h B) (hc : ∀ c ∈ B, Conn h c)
    (hw : w <:+: B) (hn : ∀ c ∈ w, c ∉ bs) : w.length ≤ h.allBbs.length := by
  have hnd : w.Nodup := by
    apply Classical.byContradiction
    intro hd
    obtain ⟨u, x, v, z, e⟩ := dup_split hd
    have hin : x :: (v ++ [x]) <:+: B := by
      refine List.IsInfix.trans ⟨u, z, ?_⟩ hw
      rw [e]; simp
    have hmem : ∀ c ∈ x :: v, c ∈ w := by
      intro c hc'
      rw [e]
      simp at hc' ⊢
      rcases hc' with rfl | h <;> simp_all
    have hcon : ∀ c ∈ x :: v, Conn h c := fun c hc' => hc c (hw.subset (hmem c hc'))
    have hC : Cyclic h (x :: v) := by
      refine ⟨by simp, ?_⟩
      intro c hc'
      have : c ∈ v ++ [x] := by simp at hc' ⊢; exact hc'.symm
      obtain ⟨p, hp, hi⟩ := pred_in (x := x) this
      rw [List.dropLast_concat] at hp
      refine ⟨p, hp, ?_⟩
      have hpm := Conn.mem hs (hcon p hp)
      exact (hs.graph.sym p hpm c (Conn.mem hs (hcon c hc'))).1 (hl p c (hi.trans hin))
    obtain ⟨c, h1, h2⟩ := hcy _ hC hcon
    exact hn c (hmem c h1) h2
  exact (List.subperm_of_subset hnd (fun c hc' => Conn.mem hs (hc c (hw.subset hc')))).length_le

theorem takeWhile_imp {p : Nat → Bool} {l : List Nat} {c : Nat} (h : c ∈ l.takeWhile p) : p c = true := by
  induction l with
  | nil => cases h
  | cons a l ih =>
    rw [List.takeWhile_cons] at h
    split at h
    · rcases List.mem_cons.1 h with rfl | h
      · assumption
      · exact ih h
    · cases h

theorem le_sum {l : List Nat} {n : Nat} (h : n ∈ l) : n ≤ l.sum := by
  induction l with
  | nil => cases h
  | cons a l ih =>
    rw [List.sum_cons]
    rcases List.mem_cons.1 h with rfl | h
    · omega
    · have := ih h; omega

theorem length_bound {bs : List Nat} {M : Nat} : ∀ (n : Nat) (B : List Nat), B.length = n → (∀ w, w <:+: B → (∀ c ∈ w, c ∉ bs) → w.length ≤ M) →
    B.length + 1 ≤ ((B.filter fun c => decide (c ∈ bs)).length + 1) * (M + 1) := by
  intro n
  induction n using Nat.strongRecOn with
  | _ n ih =>
    intro B hB hw
    have e := List.takeWhile_append_dropWhile (p := fun c => decide (c ∉ bs)) (l := B)
    have h1 : (B.takeWhile fun c => decide (c ∉ bs)).length ≤ M := by
      refine hw _ ⟨[], B.dropWhile (fun c => decide (c ∉ bs)), by simpa using e⟩ ?_
      intro c hc
      simpa using takeWhile_imp hc
    have hf1 : (B.takeWhile fun c => decide (c ∉ bs)).filter (fun c => decide (c ∈ bs)) = [] := by
      rw [List.filter_eq_nil_iff]
      intro c hc
      simpa using takeWhile_imp hc
    cases hd : B.dropWhile (fun c => decide (c ∉ bs)) with
    | nil =>
      rw [hd, List.append_nil] at e
      rw [e] at h1 hf1
      rw [hf1]
      simp
      exact h1
    | cons x t =>
      rw [hd] at e
      have hx : x ∈ bs := by
        have := List.head?_dropWhile_not (p := fun c => decide (c ∉ bs)) B
        rw [hd] at this
        simpa using this
      have hlen : B.length = (B.takeWhile fun c => decide (c ∉ bs)).length + (t.length + 1) := by
        conv => lhs; rw [← e]
        simp
      have hcnt : (B.filter fun c => decide (c ∈ bs)).length = (t.filter fun c => decide (c ∈ bs)).length + 1 := by
        conv => lhs; rw [← e]
        rw [List.filter_append, hf1]
        simp [hx]
      have := ih t.length (by omega) t rfl (fun w hi => hw w (hi.trans ⟨(B.takeWhile fun c => decide (c ∉ bs)) ++ [x], [], by
        conv => rhs; rw [← e]
        simp⟩))
      rw [hcnt, hlen]
      have e2 : ((t.filter fun c => decide (c ∈ bs)).length + 1 + 1) * (M + 1) = ((t.filter fun c => decide (c ∈ bs)).length + 1) * (M + 1) + (M + 1) := by
        rw [Nat.add_mul _ 1, Nat.one_mul]
      omega

/-- The length of the longest block. -/
def longest (h : Fn) : Nat := (h.allBbs.map fun b => (h.body b).length).sum

theorem le_longest {h : Fn} {b : Nat} (hb : b ∈ h.allBbs) : (h.body b).length ≤ longest h :=
  le_sum (List.mem_map.2 ⟨b, hb, rfl⟩)

theorem Inst.bound {W : World} {h : Fn} {a s0 : Nat} {lim : BitVec 32} {bs : List Nat} (I : Inst h a s0 lim bs) (hw : 4 ≤ W.wid a) (hl : lim.toNat < 2 ^ 31)
    (hcy : ∀ C, Cyclic h C → (∀ c ∈ C, Conn h c) → ∃ c ∈ C, c ∈ bs) (σ : St) (m : Nat) :
    (trail W h m h.entry (h.body h.entry) σ).length + 2 ≤ (lim.toNat + 3) * (h.allBbs.length + 1) ∧
    (∀ c r τ, runFn W h m σ = .running c r τ → m ≤ (lim.toNat + 3) * (h.allBbs.length + 1) * (longest h + 1)) := by
  let N : List Nat → Nat := fun B => (B.filter fun c => decide (c ∈ bs)).length
  let P : Nat → List Nat → St → List Nat → List Nat → Nat → Prop := fun c r σ _ B k =>
    (Linked h B ∧ (∀ d ∈ B, Conn h d) ∧ B.getLast? = some c ∧ k + r.length ≤ B.length * (longest h + 1)) ∧
    ((∃ T, Phase h a s0 lim bs T c r σ ∧ N B ≤ T + (if c ∈ bs then 1 else 0)) ∨ (InErr h r ∧ N B ≤ lim.toNat + 2))
  have hNs : ∀ B c, N (B ++ [c]) = N B + if c ∈ bs then 1 else 0 := by
    intro B c
    by_cases hc : c ∈ bs <;> simp [N, hc]
  have hP : ∀ c r σ H B k c1 r1 τ, P c r σ H B k → IR.step W h c r σ = .goto c1 r1 τ → P c1 r1 τ (H ++ r.take 1) (B ++ if IR.leaves h r then [c1] else []) (k + 1) := by
    rintro c r σ H B k c1 r1 τ ⟨⟨h1, h2, h3, h4⟩, h5⟩ hst
    rcases h5 with ⟨T, p, h5⟩ | ⟨p, _⟩
    · have hcB : c ∈ B := List.mem_of_getLast? h3
      obtain ⟨hc1, h6⟩ := I.step hw hl (h2 c hcB) p hst
      have hlen : ∀ {d}, Conn h d → (codeOf h d).length ≤ longest h := fun hd =>
        Nat.le_trans (List.dropWhile_suffix _).length_le (le_longest (Conn.mem I.shape hd))
      have hlen2 : ∀ {d}, (B ++ [d]).length * (longest h + 1) = B.length * (longest h + 1) + (longest h + 1) := by
        intro d; simp [Nat.add_mul]
      have hcon' : ∀ d ∈ B ++ [c1], Conn h d := by
        intro d hd
        rcases List.mem_append.1 hd with hd | hd
        · exact h2 d hd
        · rw [List.mem_singleton.1 hd]; exact hc1
      have hr1 : IR.leaves h r = true → r1 = codeOf h c1 := by
        intro hlv
        rcases step_cases hst with ⟨x, rfl, _, hpl, _⟩ | ⟨_, h, _⟩
        · rw [plain_leaves hpl] at hlv; cases hlv
        · exact h
      rcases h6 with ⟨hlv, rfl, p'⟩ | ⟨hlv, hnb, hsu, hr, p'⟩ | ⟨hlv, hb, hsu, t, e, l, ad, s, j, v, S, rfl, h7⟩
      · rw [hlv]
        simp only [Bool.false_eq_true, if_false, List.append_nil]
        refine ⟨⟨h1, h2, h3, ?_⟩, .inl ⟨T, p', h5⟩⟩
        rcases step_cases hst with ⟨x, rfl, _, hpl, _⟩ | ⟨w, _⟩
        · simp at h4 ⊢; omega
        · rw [Way.leaves w] at hlv; cases hlv
      · rw [hlv]
        simp only [if_true]
        refine ⟨⟨linked_snoc h1 h3 hsu, hcon', by simp, ?_⟩, .inl ⟨T, p', ?_⟩⟩
        · rw [hlen2, hr]; have := hlen hc1; omega
        · rw [hNs]; rw [if_neg hnb] at h5; omega
      · rw [hlv]
        simp only [if_true]
        rw [if_pos hb] at h5
        refine ⟨⟨linked_snoc h1 h3 hsu, hcon', by simp, ?_⟩, ?_⟩
        · rw [hlen2, hr1 hlv]; have := hlen hc1; omega
        · rcases h7 with ⟨_, _, p'⟩ | ⟨_, p'⟩
          · exact .inl ⟨T + 1, p', by rw [hNs]; omega⟩
          · refine .inr ⟨p', ?_⟩
            have := p.le
            rw [hNs]
            split <;> omega
    · exact absurd hst (p.step c1 r1 τ)
  have h0 : P h.entry (h.body h.entry) σ [] [h.entry] 0 := by
    refine ⟨⟨?_, ?_, rfl, ?_⟩, .inl ⟨0, .start rfl rfl rfl, ?_⟩⟩
    · rintro p q ⟨u, v, e⟩
      have := congrArg List.length e
      simp at this
      omega
    · intro d hd; rw [List.mem_singleton.1 hd]; exact .entry
    · have := le_longest I.shape.entry
      simp
      omega
    · by_cases hc : h.entry ∈ bs <;> simp [N, hc]
  obtain ⟨c1, r1, τ, H1, k1, ⟨⟨h1, h2, h3, h4⟩, h5⟩, _, h7⟩ := hist_inv P hP m (H := []) h0
  have hB : ([h.entry] ++ trail W h m h.entry (h.body h.entry) σ).length + 1 ≤ (lim.toNat + 3) * (h.allBbs.length + 1) := by
    refine Nat.le_trans (length_bound (bs := bs) _ _ rfl (fun w hi hn => window I.shape hcy h1 h2 hi hn)) (Nat.mul_le_mul_right _ ?_)
    show N _ + 1 ≤ _
    rcases h5 with ⟨T, p, h5⟩ | ⟨_, h5⟩
    · have := p.le
      split at h5 <;> omega
    · omega
  refine ⟨?_, ?_⟩
  · simp at hB; omega
  · intro c r τ' hrun
    have := h7 c r τ' hrun
    have h8 : ([h.entry] ++ trail W h m h.entry (h.body h.entry) σ).length * (longest h + 1) ≤ (lim.toNat + 3) * (h.allBbs.length + 1) * (longest h + 1) :=
      Nat.mul_le_mul_right _ (by omega)
    omega

end Verif.Count
