import Verif.Arr.Model
namespace Verif.Arr
open Verif
variable {α : Type}

/-- `a` holds exactly the elements of `l`, and its buffer is as long as `max` says. -/
structure Rep (a : Arr α) (l : List α) : Prop where
  num : a.num = l.length
  nul : a.data = none → l = []
  buf : ∀ b, a.data = some b → b.length = a.max ∧ 0 < a.max ∧ l.length ≤ a.max ∧
      b.take l.length = l.map some

theorem rep_init : Rep (init : Arr α) [] := ⟨rfl, fun _ => rfl, by simp [init]⟩

theorem rep_push {a : Arr α} {l : List α} (h : Rep a l) (v : α) :
    ∃ a', push a v = .ok a' ∧ Rep a' (l ++ [v]) := by
  obtain ⟨data, num, max⟩ := a
  have hn := h.num; simp at hn; subst hn
  cases data with
  | none =>
    have := h.nul rfl; subst this
    refine ⟨_, rfl, ?_⟩
    refine ⟨rfl, by simp, ?_⟩
    intro b hb
    simp [alloc] at hb
    subst hb
    simp [alloc, List.replicate]
  | some b =>
    obtain ⟨h1, h2, h3, h4⟩ := h.buf b rfl
    simp at h1 h2 h3
    by_cases hf : l.length ≥ max
    · have hm : l.length = max := by omega
      have hb : b = l.map some := by
        have : b.take l.length = b := List.take_of_length_le (by omega)
        rw [this] at h4; exact h4
      subst hb
      refine ⟨_, by
        simp [push, hf, write, alloc]
        rw [if_pos (by omega), ]
        simp
        rw [if_pos (by omega)]
        rfl, ?_⟩
      refine ⟨by simp, by simp, ?_⟩
      intro b' hb'
      simp at hb'
      subst hb'
      simp
      refine ⟨by omega, by omega, by omega, ?_⟩
      have : max * 2 - l.length = (max * 2 - l.length - 1) + 1 := by omega
      rw [this, List.replicate_succ, h4]
      simp [List.take_append]
      exact List.take_of_length_le (by simp)
    · have hlt : l.length < max := by omega
      refine ⟨_, by
        simp [push, hf, write]
        rw [if_pos (by omega)]
        rfl, ?_⟩
      refine ⟨by simp, by simp, ?_⟩
      intro b' hb'
      simp at hb'
      subst hb'
      simp
      refine ⟨by omega, by omega, by omega, ?_⟩
      rw [List.take_add_one]
      simp [List.take_set, h4]
      rw [List.set_eq_of_length_le (by simp)]
      simp [show l.length < b.length by omega]

theorem rep_read {a : Arr α} {l : List α} (h : Rep a l) {i : Nat} (hi : i < l.length) :
    read a i = .ok (some l[i]) := by
  cases hd : a.data with
  | none => have := h.nul hd; subst this; simp at hi
  | some b =>
    obtain ⟨h1, h2, h3, h4⟩ := h.buf b hd
    have hib : i < b.length := by omega
    simp [read, hd, hib]
    have : (b.take l.length)[i]? = (l.map some)[i]? := by rw [h4]
    simp [List.getElem?_take, hi, hib] at this
    exact this

theorem scanEq_spec [DecidableEq α] {a : Arr α} {l : List α} (h : Rep a l) (v : α) :
    ∀ fuel i, fuel + i = l.length → scanEq a v fuel i = .ok (decide (v ∈ l.drop i)) := by
  intro fuel
  induction fuel with
  | zero => intro i hi; simp [scanEq]; rw [List.drop_of_length_le (by omega)]; simp
  | succ n ih =>
    intro i hi
    have hlt : i < l.length := by omega
    rw [scanEq, if_pos (by rw [h.num]; exact hlt), rep_read h hlt]
    rw [List.drop_eq_getElem_cons hlt]
    by_cases hx : l[i] = v
    · simp [hx]
    · simp [hx]
      rw [ih (i+1) (by omega)]
      rw [List.drop_eq_getElem_cons hlt]
      congr 1
      rw [decide_eq_decide]
      constructor
      · intro hm; exact List.mem_cons_of_mem _ hm
      · intro hm
        rcases List.mem_cons.1 hm with hm | hm
        · exact absurd hm.symm hx
        · exact hm

theorem rep_pushUnique [DecidableEq α] {a : Arr α} {l : List α} (h : Rep a l) (v : α) :
    ∃ a', pushUnique a v = .ok a' ∧ Rep a' (if v ∈ l then l else l ++ [v]) := by
  unfold pushUnique
  rw [h.num, scanEq_spec h v l.length 0 (by omega)]
  by_cases hv : v ∈ l
  · simp [hv]; exact h
  · simp [hv]; exact rep_push h v

theorem shift_spec {m : Nat} :
    ∀ fuel i (b : List (Option α)) (n : Nat), b.length = m → n ≤ m → i < n → n - i ≤ fuel + 1 →
      shift ⟨some b, n, m⟩ fuel i
        = .ok ⟨some (b.take i ++ ((b.take n).drop (i+1)) ++ b.drop (n-1)), n, m⟩ := by
  intro fuel
  induction fuel with
  | zero =>
    intro i b n hb hn hi hf
    have : i = n - 1 := by omega
    subst this
    have e : n - 1 + 1 = n := by omega
    simp [shift, e]
  | succ k ih =>
    intro i b n hb hn hi hf
    by_cases hlt : i < n - 1
    · have h1 : i + 1 < b.length := by omega
      have h2 : i < b.length := by omega
      simp only [shift, hlt, if_true, read, h1, dif_pos, Out.ok_bind, write, h2]
      rw [ih (i+1) (b.set i b[i+1]) n (by simp [hb]) hn (by omega) (by omega)]
      congr 3
      have e1 : (b.set i b[i+1]).take (i+1) = b.take i ++ [b[i+1]] := by
        rw [List.take_succ_eq_append_getElem (by simp; omega)]
        simp [List.take_set]
        rw [List.set_eq_of_length_le (by simp; omega)]
      have e2 : ((b.set i b[i+1]).take n).drop (i+1+1) = (b.take n).drop (i+2) := by
        rw [List.take_set, List.drop_set_of_lt (by omega)]
      have e3 : (b.set i b[i+1]).drop (n-1) = b.drop (n-1) := by
        rw [List.drop_set_of_lt (by omega)]
      rw [e1, e2, e3]
      have e4 : (b.take n).drop (i+1) = b[i+1] :: (b.take n).drop (i+2) := by
        rw [List.drop_eq_getElem_cons (by simp; omega)]
        simp
      rw [e4]
      simp
    · have : i = n - 1 := by omega
      subst this
      have e : n - 1 + 1 = n := by omega
      simp [shift, e]

theorem rep_erase {a : Arr α} {l : List α} (h : Rep a l) (i : Nat) :
    ∃ a', erase a i = .ok a' ∧ Rep a' (l.eraseIdx i) := by
  unfold erase
  by_cases hi : i ≥ a.num
  · rw [if_pos hi]
    refine ⟨a, rfl, ?_⟩
    rw [List.eraseIdx_of_length_le (by rw [← h.num]; exact hi)]
    exact h
  · rw [if_neg hi]
    have hn := h.num
    obtain ⟨data, num, max⟩ := a
    simp at hn hi
    subst hn
    cases data with
    | none => have := h.nul rfl; subst this; simp at hi
    | some b =>
      obtain ⟨h1, h2, h3, h4⟩ := h.buf b rfl
      simp at h1 h2 h3
      simp only []
      rw [shift_spec l.length i b l.length h1 h3 hi (by omega)]
      refine ⟨_, rfl, ?_⟩
      refine ⟨by simp [List.length_eraseIdx, hi], by simp, ?_⟩
      intro b' hb'
      simp at hb'
      subst hb'
      simp
      refine ⟨by omega, h2, by rw [List.length_eraseIdx]; split <;> omega, ?_⟩
      have e : (b.take i) = (l.map some).take i := by
        rw [← h4, List.take_take]; congr 1; omega
      rw [← List.append_assoc, h4, e]
      rw [List.take_append_of_le_length]
      · rw [List.take_of_length_le (by simp [List.length_eraseIdx, hi]; omega)]
        rw [List.eraseIdx_eq_take_drop_succ]
        simp
      · simp [List.length_eraseIdx, hi]; omega

theorem rep_clear (a : Arr α) : Rep (clear a) ([] : List α) := by
  refine ⟨rfl, fun _ => rfl, ?_⟩
  intro b hb
  simp [clear] at hb
  subst hb
  simp [clear, alloc]

theorem rep_clone {a : Arr α} {l : List α} (h : Rep a l) :
    ∃ a', clone a = .ok a' ∧ Rep a' l := by
  unfold clone
  by_cases h0 : a.num = 0
  · rw [if_pos h0]
    have : l = [] := by
      have := h.num; rw [h0] at this; exact List.length_eq_zero_iff.1 this.symm
    subst this
    exact ⟨_, rfl, by simp [h0], fun _ => rfl, by simp⟩
  · rw [if_neg h0]
    cases hd : a.data with
    | none => have := h.nul hd; have h' := h.num; subst this; simp at h'; exact absurd h' h0
    | some b =>
      obtain ⟨h1, h2, h3, h4⟩ := h.buf b hd
      have hn := h.num
      simp only []
      rw [if_pos (by omega)]
      refine ⟨_, rfl, ?_⟩
      refine ⟨hn, by simp, ?_⟩
      intro b' hb'
      simp at hb'
      subst hb'
      rw [hn, h4]
      simp [alloc]
      omega

theorem mergeLoop_spec [DecidableEq α] {b : Arr α} {m : List α} (hb : Rep b m) :
    ∀ fuel i (a : Arr α) (l : List α), Rep a l → fuel + i = m.length →
      ∃ a', mergeLoop b fuel i a = .ok a' ∧
        Rep a' ((m.drop i).foldl (fun l v => if v ∈ l then l else l ++ [v]) l) := by
  intro fuel
  induction fuel with
  | zero =>
    intro i a l ha hi
    rw [List.drop_of_length_le (by omega)]
    exact ⟨a, rfl, ha⟩
  | succ k ih =>
    intro i a l ha hi
    have hlt : i < m.length := by omega
    rw [mergeLoop, if_pos (by rw [hb.num]; exact hlt), rep_read hb hlt]
    obtain ⟨a', h1, h2⟩ := rep_pushUnique ha m[i]
    simp only [Out.ok_bind, h1]
    obtain ⟨a'', h3, h4⟩ := ih (i+1) a' _ h2 (by omega)
    refine ⟨a'', h3, ?_⟩
    rw [List.drop_eq_getElem_cons hlt]
    exact h4

theorem rep_merge [DecidableEq α] {a b : Arr α} {l m : List α} (ha : Rep a l) (hb : Rep b m) :
    ∃ a', merge a b = .ok a' ∧
      Rep a' (m.foldl (fun l v => if v ∈ l then l else l ++ [v]) l) := by
  unfold merge
  rw [hb.num]
  obtain ⟨a', h1, h2⟩ := mergeLoop_spec hb m.length 0 a l ha (by omega)
  exact ⟨a', h1, by simpa using h2⟩

theorem rep_get {a : Arr α} {l : List α} (h : Rep a l) (i : Nat) : get a i = .ok l[i]? := by
  unfold get
  by_cases hi : i < l.length
  · rw [if_neg (by rw [h.num]; omega), rep_read h hi]
    simp [hi]
  · rw [if_pos (by rw [h.num]; omega)]
    simp [Nat.le_of_not_lt hi]

end Verif.Arr
