import Verif.PtrSet.Model
import Mathlib.Tactic.Ring
import Mathlib.Data.Nat.ModEq
import Mathlib.Data.Fintype.EquivFin
import Mathlib.Data.List.Perm.Basic
import Mathlib.Data.Nat.Prime.Basic
namespace Verif.PtrSet
open Verif

/-- The keys stored in a list of slots, in slot order. -/
def keys (ss : List Slot) : List Key :=
  ss.filterMap (fun s => match s with | Slot.full k => some k | _ => none)

@[simp] theorem keys_nil : keys [] = [] := rfl
@[simp] theorem keys_full (k ss) : keys (Slot.full k :: ss) = k :: keys ss := by simp [keys]
@[simp] theorem keys_empty (ss) : keys (Slot.empty :: ss) = keys ss := by simp [keys]
@[simp] theorem keys_tomb (ss) : keys (Slot.tomb :: ss) = keys ss := by simp [keys]
@[simp] theorem keys_append (a b) : keys (a ++ b) = keys a ++ keys b := by simp [keys]

theorem mem_keys {k : Key} {ss : List Slot} : k ∈ keys ss ↔ ∃ p : Nat, ss[p]? = some (Slot.full k) := by
  rw [← List.mem_iff_getElem?]
  simp only [keys, List.mem_filterMap]
  constructor
  · rintro ⟨s, hs, h⟩
    cases s <;> simp at h
    subst h; exact hs
  · intro h; exact ⟨_, h, rfl⟩

theorem mem_keys' {k : Key} {ss : List Slot} : k ∈ keys ss ↔ Slot.full k ∈ ss := by
  rw [mem_keys, ← List.mem_iff_getElem?]

theorem keys_replicate_empty (n : Nat) : keys (List.replicate n Slot.empty) = [] := by
  induction n with
  | zero => rfl
  | succ n ih => simp [List.replicate_succ, ih]

theorem split_at {ss : List Slot} {p : Nat} {x : Slot} (h : ss[p]? = some x) :
    ss = ss.take p ++ x :: ss.drop (p+1) ∧ ∀ y, ss.set p y = ss.take p ++ y :: ss.drop (p+1) := by
  have hp : p < ss.length := by
    rcases Nat.lt_or_ge p ss.length with h' | h'
    · exact h'
    · rw [List.getElem?_eq_none h'] at h; simp at h
  constructor
  · rw [List.getElem?_eq_getElem hp] at h
    simp at h
    rw [← h]
    simp
  · intro y
    rw [List.set_eq_take_append_cons_drop, if_pos hp]

theorem keys_set_full {ss : List Slot} {p : Nat} {x : Slot} (h : ss[p]? = some x)
    (hx : ∀ k, x ≠ Slot.full k) (k : Key) : (keys (ss.set p (Slot.full k))).Perm (k :: keys ss) := by
  obtain ⟨h1, h2⟩ := split_at h
  rw [h2]
  conv => rhs; rw [h1]
  simp
  cases x with
  | full k' => exact absurd rfl (hx k')
  | _ => simp

theorem keys_set_tomb {ss : List Slot} {p : Nat} {k : Key} (h : ss[p]? = some (Slot.full k)) :
    (keys ss).Perm (k :: keys (ss.set p Slot.tomb)) := by
  obtain ⟨h1, h2⟩ := split_at h
  rw [h2]
  conv => lhs; rw [h1]
  simp

/-- The `i`-th probed index for key `k` in a table of `n` slots. -/
def probe (n : Nat) (k : Key) (i : Nat) : Nat := (hash k + 31 * i) % n

theorem probe_zero (n k) : hash k % n = probe n k 0 := by simp [probe]

theorem probe_succ (n k i) : (probe n k i + STEP) % n = probe n k (i+1) := by
  simp only [probe, STEP, Nat.mod_add_mod]
  congr 1

theorem probe_lt {n : Nat} (h : 0 < n) (k i) : probe n k i < n := Nat.mod_lt _ h

theorem probe_inj {n : Nat} (hc : Nat.Coprime 31 n) {k : Key} {i j : Nat} (hi : i < n) (hj : j < n)
    (h : probe n k i = probe n k j) : i = j := by
  have h1 : hash k + 31 * i ≡ hash k + 31 * j [MOD n] := h
  have h2 : 31 * i ≡ 31 * j [MOD n] := Nat.ModEq.add_left_cancel' _ h1
  have h3 : i ≡ j [MOD n] := Nat.ModEq.cancel_left_of_coprime hc.symm h2
  rwa [Nat.ModEq, Nat.mod_eq_of_lt hi, Nat.mod_eq_of_lt hj] at h3

theorem probe_surj {n : Nat} (hn : 0 < n) (hc : Nat.Coprime 31 n) (k : Key) {p : Nat} (hp : p < n) :
    ∃ i, i < n ∧ probe n k i = p := by
  let f : Fin n → Fin n := fun i => ⟨probe n k i, probe_lt hn k i⟩
  have hf : Function.Injective f := by
    intro a b hab
    simp [f] at hab
    exact Fin.ext (probe_inj hc a.2 b.2 hab)
  obtain ⟨i, hi⟩ := (Finite.injective_iff_surjective.1 hf) ⟨p, hp⟩
  exact ⟨i, i.2, by simpa [f] using congrArg Fin.val hi⟩

/-- Table invariant: keys are found before the first empty slot of their probe sequence, keys are
distinct and counted. -/
structure Inv (s : PSet) : Prop where
  pos : 0 < s.slots.length
  cop : Nat.Coprime 31 s.slots.length
  reach : ∀ p k, s.slots[p]? = some (Slot.full k) →
    ∃ i, i < s.slots.length ∧ probe s.slots.length k i = p ∧
      ∀ j, j < i → s.slots[probe s.slots.length k j]? ≠ some Slot.empty
  nodup : (keys s.slots).Nodup
  cnt : s.cnt = (keys s.slots).length

def NoTomb (s : PSet) : Prop := Slot.tomb ∉ s.slots

theorem inv_init {n : Nat} (hn : 0 < n) (hc : Nat.Coprime 31 n) : Inv (init n) := by
  refine ⟨by simpa [init], by simpa [init], ?_, by simp [init, keys_replicate_empty],
    by simp [init, keys_replicate_empty]⟩
  intro p k h
  simp only [init, List.getElem?_replicate] at h
  split at h <;> simp at h

theorem noTomb_init (n : Nat) : NoTomb (init n) := by
  simp [NoTomb, init]

theorem getElem?_of_lt {ss : List Slot} {p : Nat} (h : p < ss.length) : ∃ x, ss[p]? = some x :=
  ⟨ss[p], List.getElem?_eq_getElem h⟩

theorem keys_length_lt_of_nonfull {ss : List Slot} :
    (keys ss).length ≤ ss.length ∧
    ((keys ss).length < ss.length → ∃ (p : Nat) (x : Slot), ss[p]? = some x ∧ ∀ k, x ≠ Slot.full k) := by
  induction ss with
  | nil => simp
  | cons a ss ih =>
    obtain ⟨h1, h2⟩ := ih
    cases a with
    | full k =>
      simp
      refine ⟨h1, fun h => ?_⟩
      obtain ⟨p, x, hx⟩ := h2 h
      exact ⟨p+1, x, by simpa using hx⟩
    | empty => simp; exact ⟨by omega, fun _ => ⟨0, Slot.empty, by simp⟩⟩
    | tomb => simp; exact ⟨by omega, fun _ => ⟨0, Slot.tomb, by simp⟩⟩

/-! ### exists -/

theorem existsLoop_false {s : PSet} {k : Key} (hpos : 0 < s.slots.length) (h : k ∉ keys s.slots) :
    ∀ fuel i, existsLoop s k fuel (probe s.slots.length k i) = .ok false := by
  intro fuel
  induction fuel with
  | zero => intro i; rfl
  | succ n ih =>
    intro i
    rw [existsLoop]
    obtain ⟨x, hx⟩ := getElem?_of_lt (probe_lt hpos k i)
    rw [hx]
    cases x with
    | empty => rfl
    | tomb => simp only [probe_succ]; exact ih _
    | full k' =>
      have : k' ≠ k := by
        intro e; subst e; exact h (mem_keys.2 ⟨_, hx⟩)
      simp only [this, if_false, probe_succ]; exact ih _

theorem existsLoop_true {s : PSet} {k : Key} {i' : Nat}
    (hx' : s.slots[probe s.slots.length k i']? = some (Slot.full k)) :
    ∀ fuel i, i ≤ i' → i' < fuel + i →
      (∀ j, i ≤ j → j < i' → ∃ x, s.slots[probe s.slots.length k j]? = some x ∧ x ≠ Slot.empty) →
      existsLoop s k fuel (probe s.slots.length k i) = .ok true := by
  intro fuel
  induction fuel with
  | zero => intro i h1 h2; omega
  | succ n ih =>
    intro i h1 h2 h3
    rw [existsLoop]
    by_cases he : i = i'
    · subst he; rw [hx']; simp
    · obtain ⟨x, hx, hne⟩ := h3 i (Nat.le_refl _) (by omega)
      have hrec := ih (i+1) (by omega) (by omega) (fun j hj => h3 j (by omega))
      rw [hx]
      cases x with
      | empty => exact absurd rfl hne
      | tomb => simp only [probe_succ]; exact hrec
      | full k' =>
        by_cases hk : k' = k
        · simp [hk]
        · simp only [hk, if_false, probe_succ]; exact hrec

theorem exists_spec {s : PSet} (hI : Inv s) (k : Key) :
    «exists» s k = .ok (decide (k ∈ keys s.slots)) := by
  unfold «exists»
  rw [if_neg (by have := hI.pos; omega), probe_zero]
  by_cases h : k ∈ keys s.slots
  · obtain ⟨p, hp⟩ := mem_keys.1 h
    obtain ⟨i, hi, he, hj⟩ := hI.reach p k hp
    subst he
    rw [existsLoop_true hp _ 0 (by omega) (by omega), decide_eq_true h]
    intro j _ hji
    obtain ⟨x, hx⟩ := getElem?_of_lt (probe_lt hI.pos k j)
    exact ⟨x, hx, fun e => hj j hji (by rw [hx, e])⟩
  · rw [existsLoop_false hI.pos h, decide_eq_false h]

/-! ### insert -/

theorem insertLoop_new {s : PSet} {k : Key} {i' : Nat} {y : Slot}
    (hx' : s.slots[probe s.slots.length k i']? = some y) (hy : ∀ k, y ≠ Slot.full k)
    (hk : k ∉ keys s.slots) :
    ∀ fuel i, i ≤ i' → i' < fuel + i →
      (∀ j, i ≤ j → j < i' → ∃ k', s.slots[probe s.slots.length k j]? = some (Slot.full k')) →
      insertLoop s k fuel (probe s.slots.length k i) =
        .ok ⟨s.slots.set (probe s.slots.length k i') (Slot.full k), s.cnt + 1⟩ := by
  intro fuel
  induction fuel with
  | zero => intro i h1 h2; omega
  | succ n ih =>
    intro i h1 h2 h3
    rw [insertLoop]
    by_cases he : i = i'
    · subst he; rw [hx']
      cases y with
      | full k' => exact absurd rfl (hy k')
      | _ => rfl
    · obtain ⟨k', hx⟩ := h3 i (Nat.le_refl _) (by omega)
      have hrec := ih (i+1) (by omega) (by omega) (fun j hj => h3 j (by omega))
      rw [hx]
      have : k' ≠ k := by
        intro e; subst e; exact hk (mem_keys.2 ⟨_, hx⟩)
      simp only [this, if_false, probe_succ]; exact hrec

theorem insertLoop_old {s : PSet} {k : Key} {i' : Nat}
    (hx' : s.slots[probe s.slots.length k i']? = some (Slot.full k)) :
    ∀ fuel i, i ≤ i' → i' < fuel + i →
      (∀ j, i ≤ j → j < i' → ∃ k', s.slots[probe s.slots.length k j]? = some (Slot.full k')) →
      insertLoop s k fuel (probe s.slots.length k i) = .ok s := by
  intro fuel
  induction fuel with
  | zero => intro i h1 h2; omega
  | succ n ih =>
    intro i h1 h2 h3
    rw [insertLoop]
    by_cases he : i = i'
    · subst he; rw [hx']; simp
    · obtain ⟨k', hx⟩ := h3 i (Nat.le_refl _) (by omega)
      have hrec := ih (i+1) (by omega) (by omega) (fun j hj => h3 j (by omega))
      rw [hx]
      by_cases hk : k' = k
      · simp [hk]
      · simp only [hk, if_false, probe_succ]; exact hrec

/-- Inserting a key that is not a member, into a table with a free slot. -/
theorem insertRaw_new {s : PSet} (hI : Inv s) {k : Key} (hk : k ∉ keys s.slots)
    (hroom : s.cnt < s.slots.length) :
    ∃ s', insertRaw s k = .ok s' ∧ Inv s' ∧ (NoTomb s → NoTomb s') ∧
      s'.slots.length = s.slots.length ∧ s'.cnt = s.cnt + 1 ∧
      (keys s'.slots).Perm (k :: keys s.slots) := by
  obtain ⟨p, y, hp, hy⟩ := (keys_length_lt_of_nonfull (ss := s.slots)).2 (by rw [← hI.cnt]; exact hroom)
  have hpl : p < s.slots.length := by
    rcases Nat.lt_or_ge p s.slots.length with h' | h'
    · exact h'
    · rw [List.getElem?_eq_none h'] at hp; simp at hp
  -- the first non-full probe
  have hex : ∃ i, i < s.slots.length ∧
      ∃ y, s.slots[probe s.slots.length k i]? = some y ∧ ∀ k, y ≠ Slot.full k := by
    obtain ⟨i, hi, he⟩ := probe_surj hI.pos hI.cop k hpl
    exact ⟨i, hi, y, by rw [he]; exact hp, hy⟩
  classical
  have hmin := fun m => Nat.find_min (m := m) hex
  obtain ⟨hi, y', hy1, hy2⟩ := Nat.find_spec hex
  generalize Nat.find hex = i' at hmin hi hy1
  have hpath : ∀ j, j < i' → ∃ k', s.slots[probe s.slots.length k j]? = some (Slot.full k') := by
    intro j hj
    have := hmin j hj
    obtain ⟨x, hx⟩ := getElem?_of_lt (probe_lt hI.pos k j)
    cases x with
    | full k' => exact ⟨k', hx⟩
    | empty => exact absurd ⟨by omega, Slot.empty, hx, by simp⟩ this
    | tomb => exact absurd ⟨by omega, Slot.tomb, hx, by simp⟩ this
  have hperm := keys_set_full hy1 hy2 k
  refine ⟨⟨s.slots.set (probe s.slots.length k i') (Slot.full k), s.cnt + 1⟩, ?_, ?_, ?_, ?_, rfl, hperm⟩
  · unfold insertRaw
    rw [if_neg (by have := hI.pos; omega), probe_zero]
    exact insertLoop_new hy1 hy2 hk _ 0 (by omega) (by omega) (fun j _ h => hpath j h)
  · refine ⟨by simpa using hI.pos, by simpa using hI.cop, ?_, ?_, ?_⟩
    · intro q k2 hq
      simp only [List.length_set] at hq ⊢
      by_cases hqp : q = probe s.slots.length k i'
      · subst hqp
        rw [List.getElem?_set_self (probe_lt hI.pos k i')] at hq
        simp at hq
        subst hq
        refine ⟨i', hi, rfl, ?_⟩
        intro j hj
        rw [List.getElem?_set]
        split
        · split <;> simp
        · obtain ⟨k', h'⟩ := hpath j hj
          rw [h']; simp
      · rw [List.getElem?_set_ne (fun e => hqp e.symm)] at hq
        obtain ⟨i, h1, h2, h3⟩ := hI.reach q k2 hq
        refine ⟨i, h1, h2, ?_⟩
        intro j hj
        rw [List.getElem?_set]
        split
        · split <;> simp
        · exact h3 j hj
    · exact hperm.nodup_iff.2 (List.nodup_cons.2 ⟨hk, hI.nodup⟩)
    · rw [hperm.length_eq, List.length_cons, ← hI.cnt]
  · intro hT hmem
    rcases List.mem_or_eq_of_mem_set hmem with h | h
    · exact hT h
    · simp at h
  · simp

/-- Inserting a present key into a table without tombstones. -/
theorem insertRaw_old {s : PSet} (hI : Inv s) (hT : NoTomb s) {k : Key} (hk : k ∈ keys s.slots) :
    insertRaw s k = .ok s := by
  obtain ⟨p, hp⟩ := mem_keys.1 hk
  obtain ⟨i, hi, he, hj⟩ := hI.reach p k hp
  subst he
  unfold insertRaw
  rw [if_neg (by have := hI.pos; omega), probe_zero]
  apply insertLoop_old hp _ 0 (by omega) (by omega)
  intro j _ hji
  obtain ⟨x, hx⟩ := getElem?_of_lt (probe_lt hI.pos k j)
  cases x with
  | full k' => exact ⟨k', hx⟩
  | empty => exact absurd hx (hj j hji)
  | tomb => exact absurd (List.mem_of_getElem? hx) hT

/-- Re-inserting distinct new keys into a large enough table. -/
theorem insertFull_raw (ss : List Slot) : ∀ {t : PSet}, Inv t → NoTomb t →
    (keys ss).Nodup → (∀ k ∈ keys ss, k ∉ keys t.slots) →
    t.cnt + (keys ss).length ≤ t.slots.length →
    ∃ t', insertFull insertRaw ss t = .ok t' ∧ Inv t' ∧ NoTomb t' ∧
      t'.slots.length = t.slots.length ∧ (keys t'.slots).Perm (keys ss ++ keys t.slots) := by
  induction ss with
  | nil => intro t hI hT _ _ _; exact ⟨t, rfl, hI, hT, rfl, by simp⟩
  | cons a ss ih =>
    intro t hI hT hnd hdisj hroom
    cases a with
    | empty => simpa [insertFull] using ih hI hT (by simpa using hnd) (by simpa using hdisj) (by simpa using hroom)
    | tomb => simpa [insertFull] using ih hI hT (by simpa using hnd) (by simpa using hdisj) (by simpa using hroom)
    | full k =>
      simp only [keys_full, List.nodup_cons, List.length_cons] at hnd hroom
      obtain ⟨t1, h1, hI1, hT1, hl1, hc1, hp1⟩ :=
        insertRaw_new hI (hdisj k (by simp)) (by omega)
      obtain ⟨t2, h2, hI2, hT2, hl2, hp2⟩ := ih hI1 (hT1 hT) hnd.2 (by
        intro k' hk' hmem
        rcases List.mem_cons.1 ((hp1.mem_iff).1 hmem) with e | e
        · subst e; exact hnd.1 hk'
        · exact hdisj k' (by simp [hk']) e) (by omega)
      refine ⟨t2, by simp [insertFull, h1, h2], hI2, hT2, by omega, ?_⟩
      refine hp2.trans ?_
      simp only [keys_full, List.cons_append]
      refine (List.Perm.append_left _ hp1).trans ?_
      exact List.perm_middle

theorem coprime_double {n : Nat} (h : Nat.Coprime 31 n) : Nat.Coprime 31 (n * 2) :=
  Nat.Coprime.mul_right h (by decide)

/-- The table right before the raw insertion of `insert`. -/
theorem grow_spec {s : PSet} (hI : Inv s) :
    ∃ s', (if s.cnt ≥ s.slots.length then do
        let t ← insertFull insertRaw s.slots (init (s.slots.length * 2))
        Out.ok { s with slots := t.slots }
      else Out.ok s) = .ok s' ∧ Inv s' ∧ (NoTomb s → NoTomb s') ∧
      s'.cnt < s'.slots.length ∧ s'.cnt = s.cnt ∧ (keys s'.slots).Perm (keys s.slots) := by
  by_cases hf : s.cnt ≥ s.slots.length
  · rw [if_pos hf]
    have hle := (keys_length_lt_of_nonfull (ss := s.slots)).1
    have hpos := hI.pos
    have hcnt := hI.cnt
    obtain ⟨t, h1, hI1, hT1, hl1, hp1⟩ := insertFull_raw s.slots
      (inv_init (n := s.slots.length * 2) (by omega) (coprime_double hI.cop))
      (noTomb_init _) hI.nodup (by simp [init, keys_replicate_empty]) (by simp [init]; omega)
    have hp : (keys t.slots).Perm (keys s.slots) := by
      simpa [init, keys_replicate_empty] using hp1
    have hl : t.slots.length = s.slots.length * 2 := by simpa [init] using hl1
    refine ⟨{ s with slots := t.slots }, by rw [h1]; rfl, ?_, fun _ => hT1, ?_, rfl, hp⟩
    · refine ⟨hI1.pos, hI1.cop, hI1.reach, hI1.nodup, ?_⟩
      show s.cnt = _
      rw [hp.length_eq]; exact hI.cnt
    · show s.cnt < t.slots.length
      omega
  · rw [if_neg hf]
    exact ⟨s, rfl, hI, id, by omega, rfl, List.Perm.refl _⟩

theorem insert_new {s : PSet} (hI : Inv s) {k : Key} (hk : k ∉ keys s.slots) :
    ∃ s', insert s k = .ok s' ∧ Inv s' ∧ (NoTomb s → NoTomb s') ∧
      s'.cnt = s.cnt + 1 ∧ (keys s'.slots).Perm (k :: keys s.slots) := by
  obtain ⟨s1, h1, hI1, hT1, hr1, hc1, hp1⟩ := grow_spec hI
  obtain ⟨s2, h2, hI2, hT2, hl2, hc2, hp2⟩ := insertRaw_new hI1 (k := k)
    (by rw [hp1.mem_iff]; exact hk) hr1
  refine ⟨s2, ?_, hI2, fun h => hT2 (hT1 h), by omega, hp2.trans (hp1.cons k)⟩
  unfold insert
  rw [h1]
  exact h2

theorem insert_old {s : PSet} (hI : Inv s) (hT : NoTomb s) {k : Key} (hk : k ∈ keys s.slots) :
    ∃ s', insert s k = .ok s' ∧ Inv s' ∧ NoTomb s' ∧
      s'.cnt = s.cnt ∧ (keys s'.slots).Perm (keys s.slots) := by
  obtain ⟨s1, h1, hI1, hT1, hr1, hc1, hp1⟩ := grow_spec hI
  refine ⟨s1, ?_, hI1, hT1 hT, hc1, hp1⟩
  unfold insert
  rw [h1]
  exact insertRaw_old hI1 (hT1 hT) (by rw [hp1.mem_iff]; exact hk)

/-- Insertion into a tombstone-free table, membership view. -/
theorem insert_mem {s : PSet} (hI : Inv s) (hT : NoTomb s) (k : Key) :
    ∃ s', insert s k = .ok s' ∧ Inv s' ∧ NoTomb s' ∧
      ∀ k', k' ∈ keys s'.slots ↔ k' = k ∨ k' ∈ keys s.slots := by
  by_cases hk : k ∈ keys s.slots
  · obtain ⟨s', h1, h2, h3, h4, h5⟩ := insert_old hI hT hk
    refine ⟨s', h1, h2, h3, fun k' => ?_⟩
    rw [h5.mem_iff]
    constructor
    · exact Or.inr
    · rintro (rfl | h)
      · exact hk
      · exact h
  · obtain ⟨s', h1, h2, h3, h4, h5⟩ := insert_new hI hk
    refine ⟨s', h1, h2, h3 hT, fun k' => ?_⟩
    rw [h5.mem_iff, List.mem_cons]

theorem insertFull_mem (ss : List Slot) : ∀ {t : PSet}, Inv t → NoTomb t →
    ∃ t', insertFull insert ss t = .ok t' ∧ Inv t' ∧ NoTomb t' ∧
      ∀ k', k' ∈ keys t'.slots ↔ k' ∈ keys ss ∨ k' ∈ keys t.slots := by
  induction ss with
  | nil => intro t hI hT; exact ⟨t, rfl, hI, hT, by simp⟩
  | cons a ss ih =>
    intro t hI hT
    cases a with
    | empty => simpa [insertFull] using ih hI hT
    | tomb => simpa [insertFull] using ih hI hT
    | full k =>
      obtain ⟨t1, h1, hI1, hT1, hm1⟩ := insert_mem hI hT k
      obtain ⟨t2, h2, hI2, hT2, hm2⟩ := ih hI1 hT1
      refine ⟨t2, by simp [insertFull, h1, h2], hI2, hT2, fun k' => ?_⟩
      rw [hm2, hm1, keys_full, List.mem_cons]
      constructor
      · rintro (h | h | h) <;> simp [h]
      · rintro ((h | h) | h) <;> simp [h]

theorem intersecLoop_mem {b : PSet} (hb : Inv b) (ss : List Slot) : ∀ {t : PSet}, Inv t → NoTomb t →
    ∃ t', intersecLoop b ss t = .ok t' ∧ Inv t' ∧ NoTomb t' ∧
      ∀ k', k' ∈ keys t'.slots ↔ (k' ∈ keys ss ∧ k' ∈ keys b.slots) ∨ k' ∈ keys t.slots := by
  induction ss with
  | nil => intro t hI hT; exact ⟨t, rfl, hI, hT, by simp⟩
  | cons a ss ih =>
    intro t hI hT
    cases a with
    | empty => simpa [intersecLoop] using ih hI hT
    | tomb => simpa [intersecLoop] using ih hI hT
    | full k =>
      by_cases hk : k ∈ keys b.slots
      · obtain ⟨t1, h1, hI1, hT1, hm1⟩ := insert_mem hI hT k
        obtain ⟨t2, h2, hI2, hT2, hm2⟩ := ih hI1 hT1
        refine ⟨t2, by simp [intersecLoop, exists_spec hb, hk, h1, h2], hI2, hT2, fun k' => ?_⟩
        rw [hm2, hm1, keys_full, List.mem_cons]
        constructor
        · rintro (h | rfl | h)
          · exact Or.inl ⟨Or.inr h.1, h.2⟩
          · exact Or.inl ⟨Or.inl rfl, hk⟩
          · exact Or.inr h
        · rintro (⟨h | h, h'⟩ | h)
          · exact Or.inr (Or.inl h)
          · exact Or.inl ⟨h, h'⟩
          · exact Or.inr (Or.inr h)
      · obtain ⟨t2, h2, hI2, hT2, hm2⟩ := ih hI hT
        refine ⟨t2, by simp [intersecLoop, exists_spec hb, hk, h2], hI2, hT2, fun k' => ?_⟩
        rw [hm2, keys_full, List.mem_cons]
        constructor
        · rintro (h | h)
          · exact Or.inl ⟨Or.inr h.1, h.2⟩
          · exact Or.inr h
        · rintro (⟨rfl | h, h'⟩ | h)
          · exact absurd h' hk
          · exact Or.inl ⟨h, h'⟩
          · exact Or.inr h

/-! ### delete -/

theorem deleteLoop_absent {s : PSet} {k : Key} (hpos : 0 < s.slots.length) (h : k ∉ keys s.slots) :
    ∀ fuel i, deleteLoop s k fuel (probe s.slots.length k i) = .ok (s, false) := by
  intro fuel
  induction fuel with
  | zero => intro i; rfl
  | succ n ih =>
    intro i
    rw [deleteLoop]
    obtain ⟨x, hx⟩ := getElem?_of_lt (probe_lt hpos k i)
    rw [hx]
    cases x with
    | empty => rfl
    | tomb => simp only [probe_succ]; exact ih _
    | full k' =>
      have : k' ≠ k := by
        intro e; subst e; exact h (mem_keys.2 ⟨_, hx⟩)
      simp only [this, if_false, probe_succ]; exact ih _

/-- If the key is ahead on the probe sequence, the loop removes some occurrence of it. -/
theorem deleteLoop_present {s : PSet} {k : Key} {i' : Nat}
    (hx' : s.slots[probe s.slots.length k i']? = some (Slot.full k)) :
    ∀ fuel i, i ≤ i' → i' < fuel + i →
      (∀ j, i ≤ j → j < i' → ∃ x, s.slots[probe s.slots.length k j]? = some x ∧ x ≠ Slot.empty) →
      ∃ p, s.slots[p]? = some (Slot.full k) ∧
        deleteLoop s k fuel (probe s.slots.length k i) =
          .ok (⟨s.slots.set p Slot.tomb, s.cnt - 1⟩, true) := by
  intro fuel
  induction fuel with
  | zero => intro i h1 h2; omega
  | succ n ih =>
    intro i h1 h2 h3
    rw [deleteLoop]
    by_cases he : i = i'
    · subst he; refine ⟨_, hx', ?_⟩; rw [hx']; simp
    · obtain ⟨x, hx, hne⟩ := h3 i (Nat.le_refl _) (by omega)
      have hrec := ih (i+1) (by omega) (by omega) (fun j hj => h3 j (by omega))
      cases x with
      | empty => exact absurd rfl hne
      | tomb => simp only [hx, probe_succ]; exact hrec
      | full k' =>
        by_cases hk : k' = k
        · subst hk; refine ⟨_, hx, ?_⟩; rw [hx]; simp
        · simp only [hx, hk, if_false, probe_succ]; exact hrec

theorem delete_absent {s : PSet} (hI : Inv s) {k : Key} (hk : k ∉ keys s.slots) :
    delete s k = .ok (s, false) := by
  unfold delete
  rw [if_neg (by have := hI.pos; omega), probe_zero]
  exact deleteLoop_absent hI.pos hk _ _

theorem delete_present {s : PSet} (hI : Inv s) {k : Key} (hk : k ∈ keys s.slots) :
    ∃ s', delete s k = .ok (s', true) ∧ Inv s' ∧ s'.cnt + 1 = s.cnt ∧
      (keys s.slots).Perm (k :: keys s'.slots) := by
  obtain ⟨p, hp⟩ := mem_keys.1 hk
  obtain ⟨i, hi, he, hj⟩ := hI.reach p k hp
  subst he
  obtain ⟨q, hq, hdel⟩ := deleteLoop_present hp s.slots.length 0 (by omega) (by omega) (by
    intro j _ hji
    obtain ⟨x, hx⟩ := getElem?_of_lt (probe_lt hI.pos k j)
    exact ⟨x, hx, fun e => hj j hji (by rw [hx, e])⟩)
  have hperm := keys_set_tomb hq
  have hlen := hperm.length_eq
  have hcnt := hI.cnt
  simp only [List.length_cons] at hlen
  refine ⟨_, by unfold delete; rw [if_neg (by have := hI.pos; omega), probe_zero]; exact hdel, ?_,
    by simp only []; omega, hperm⟩
  refine ⟨by simpa using hI.pos, by simpa using hI.cop, ?_, ?_, by simp only []; omega⟩
  · intro r k2 hr
    simp only [List.length_set] at hr ⊢
    rw [List.getElem?_set] at hr
    split at hr
    · split at hr <;> simp at hr
    · obtain ⟨i, h1, h2, h3⟩ := hI.reach r k2 hr
      refine ⟨i, h1, h2, ?_⟩
      intro j hj
      rw [List.getElem?_set]
      split
      · split <;> simp
      · exact h3 j hj
  · exact (List.nodup_cons.1 (hperm.nodup_iff.1 hI.nodup)).2

/-- Deletion, membership view. -/
theorem delete_mem {s : PSet} (hI : Inv s) (k : Key) :
    ∃ s', delete s k = .ok (s', decide (k ∈ keys s.slots)) ∧ Inv s' ∧
      ∀ k', k' ∈ keys s'.slots ↔ k' ≠ k ∧ k' ∈ keys s.slots := by
  by_cases hk : k ∈ keys s.slots
  · obtain ⟨s', h1, h2, h3, h4⟩ := delete_present hI hk
    refine ⟨s', by rw [h1, decide_eq_true hk], h2, fun k' => ?_⟩
    have hnd := (List.nodup_cons.1 (h4.nodup_iff.1 hI.nodup)).1
    rw [h4.mem_iff, List.mem_cons]
    constructor
    · intro h; exact ⟨fun e => hnd (e ▸ h), Or.inr h⟩
    · rintro ⟨hne, h | h⟩
      · exact absurd h hne
      · exact h
  · refine ⟨s, by rw [delete_absent hI hk, decide_eq_false hk], hI, fun k' => ?_⟩
    constructor
    · intro h; exact ⟨fun e => hk (e ▸ h), h⟩
    · exact And.right

theorem minusLoop_mem (ss : List Slot) : ∀ {a : PSet}, Inv a →
    ∃ a', minusLoop ss a = .ok a' ∧ Inv a' ∧
      ∀ k', k' ∈ keys a'.slots ↔ k' ∉ keys ss ∧ k' ∈ keys a.slots := by
  induction ss with
  | nil => intro a hI; exact ⟨a, rfl, hI, by simp⟩
  | cons x ss ih =>
    intro a hI
    cases x with
    | empty => simpa [minusLoop] using ih hI
    | tomb => simpa [minusLoop] using ih hI
    | full k =>
      obtain ⟨a1, h1, hI1, hm1⟩ := delete_mem hI k
      obtain ⟨a2, h2, hI2, hm2⟩ := ih hI1
      refine ⟨a2, by simp [minusLoop, h1, h2], hI2, fun k' => ?_⟩
      rw [hm2, hm1, keys_full, List.mem_cons]
      constructor
      · rintro ⟨h, h', h''⟩; exact ⟨by rintro (e | e) <;> contradiction, h''⟩
      · rintro ⟨h, h'⟩; exact ⟨fun e => h (Or.inr e), fun e => h (Or.inl e), h'⟩

/-! ### iteration -/

theorem nextFrom_spec (s : PSet) : ∀ fuel i, s.slots.length < fuel + i →
    (keys (s.slots.drop i) = [] ∧ nextFrom s fuel i = none) ∨
    (∃ c k, nextFrom s fuel i = some (c, k) ∧ i ≤ c ∧ c < s.slots.length ∧
      keys (s.slots.drop i) = k :: keys (s.slots.drop (c+1))) := by
  intro fuel
  induction fuel with
  | zero => intro i h; left; simp [List.drop_of_length_le (by omega : s.slots.length ≤ i), nextFrom]
  | succ n ih =>
    intro i h
    rw [nextFrom]
    by_cases hi : i < s.slots.length
    · obtain ⟨x, hx⟩ := getElem?_of_lt hi
      have hd : s.slots.drop i = x :: s.slots.drop (i+1) := by
        rw [List.getElem?_eq_getElem hi] at hx
        simp at hx
        rw [← hx]; exact List.drop_eq_getElem_cons hi
      rw [hx, hd]
      cases x with
      | full k => right; exact ⟨i, k, rfl, Nat.le_refl _, hi, by simp⟩
      | empty =>
        simp only [keys_empty]
        rcases ih (i+1) (by omega) with h' | ⟨c, k, h1, h2, h3, h4⟩
        · exact Or.inl h'
        · exact Or.inr ⟨c, k, h1, by omega, h3, h4⟩
      | tomb =>
        simp only [keys_tomb]
        rcases ih (i+1) (by omega) with h' | ⟨c, k, h1, h2, h3, h4⟩
        · exact Or.inl h'
        · exact Or.inr ⟨c, k, h1, by omega, h3, h4⟩
    · left
      rw [List.getElem?_eq_none (by omega)]
      simp [List.drop_of_length_le (by omega : s.slots.length ≤ i)]

theorem iterate_some (s : PSet) : ∀ fuel c, s.slots.length < fuel + c + 1 →
    iterate s fuel (some c) = keys (s.slots.drop (c+1)) := by
  intro fuel
  induction fuel with
  | zero => intro c h; simp [iterate, List.drop_of_length_le (by omega : s.slots.length ≤ c+1)]
  | succ n ih =>
    intro c h
    rw [iterate, next]
    rcases nextFrom_spec s (s.slots.length + 1) (c+1) (by omega) with ⟨h1, h2⟩ | ⟨c', k, h1, h2, h3, h4⟩
    · simp [h1, h2]
    · simp only [h1, h4]
      rw [ih c' (by omega)]

theorem iterate_spec (s : PSet) : iterate s (s.slots.length + 1) none = keys s.slots := by
  rw [iterate, next]
  rcases nextFrom_spec s (s.slots.length + 1) 0 (by omega) with ⟨h1, h2⟩ | ⟨c', k, h1, h2, h3, h4⟩
  · simp at h1; simp [h1, h2]
  · simp only [h1]
    rw [iterate_some s _ c' (by omega)]
    simpa using h4.symm

/-! ### Arbitrary histories: a weaker invariant without distinctness -/

/-- What survives every history, including ones that create duplicate entries. -/
structure WInv (s : PSet) : Prop where
  pos : 0 < s.slots.length
  cop : Nat.Coprime 31 s.slots.length
  reach : ∀ p k, s.slots[p]? = some (.full k) →
    ∃ i, i < s.slots.length ∧ probe s.slots.length k i = p ∧
      ∀ j, j < i → s.slots[probe s.slots.length k j]? ≠ some .empty
  cnt : (keys s.slots).length ≤ s.cnt
  le : s.cnt ≤ s.slots.length

theorem Inv.weak {s : PSet} (h : Inv s) : WInv s :=
  ⟨h.pos, h.cop, h.reach, Nat.le_of_eq h.cnt.symm, by
    rw [h.cnt]; exact (keys_length_lt_of_nonfull (ss := s.slots)).1⟩

theorem exists_spec_w {s : PSet} (hI : WInv s) (k : Key) :
    «exists» s k = .ok (decide (k ∈ keys s.slots)) := by
  unfold «exists»
  rw [if_neg (by have := hI.pos; omega), probe_zero]
  by_cases h : k ∈ keys s.slots
  · obtain ⟨p, hp⟩ := mem_keys.1 h
    obtain ⟨i, hi, he, hj⟩ := hI.reach p k hp
    subst he
    rw [existsLoop_true hp _ 0 (by omega) (by omega), decide_eq_true h]
    intro j _ hji
    obtain ⟨x, hx⟩ := getElem?_of_lt (probe_lt hI.pos k j)
    exact ⟨x, hx, fun e => hj j hji (by rw [hx, e])⟩
  · rw [existsLoop_false hI.pos h, decide_eq_false h]

theorem insertLoop_w {s : PSet} {k : Key} {i' : Nat} {y : Slot}
    (hx' : s.slots[probe s.slots.length k i']? = some y) (hy : ∀ k, y ≠ Slot.full k) :
    ∀ fuel i, i ≤ i' → i' < fuel + i →
      (∀ j, i ≤ j → j < i' → ∃ k', s.slots[probe s.slots.length k j]? = some (Slot.full k')) →
      (insertLoop s k fuel (probe s.slots.length k i) = .ok s ∧ k ∈ keys s.slots) ∨
      insertLoop s k fuel (probe s.slots.length k i) =
        .ok ⟨s.slots.set (probe s.slots.length k i') (Slot.full k), s.cnt + 1⟩ := by
  intro fuel
  induction fuel with
  | zero => intro i h1 h2; omega
  | succ n ih =>
    intro i h1 h2 h3
    rw [insertLoop]
    by_cases he : i = i'
    · subst he; rw [hx']
      cases y with
      | full k' => exact absurd rfl (hy k')
      | _ => right; rfl
    · obtain ⟨k', hx⟩ := h3 i (Nat.le_refl _) (by omega)
      have hrec := ih (i+1) (by omega) (by omega) (fun j hj => h3 j (by omega))
      rw [hx]
      by_cases hk : k' = k
      · subst hk; left; exact ⟨by simp, mem_keys.2 ⟨_, hx⟩⟩
      · simp only [hk, if_false, probe_succ]; exact hrec

theorem insertRaw_w {s : PSet} (hI : WInv s) (k : Key) (hroom : s.cnt < s.slots.length) :
    ∃ s', insertRaw s k = .ok s' ∧ WInv s' ∧ s'.slots.length = s.slots.length ∧
      s'.cnt ≤ s.cnt + 1 ∧ ∀ k', k' ∈ keys s'.slots ↔ k' = k ∨ k' ∈ keys s.slots := by
  obtain ⟨p, y, hp, hy⟩ := (keys_length_lt_of_nonfull (ss := s.slots)).2
    (by have := hI.cnt; omega)
  have hpl : p < s.slots.length := by
    rcases Nat.lt_or_ge p s.slots.length with h' | h'
    · exact h'
    · rw [List.getElem?_eq_none h'] at hp; simp at hp
  have hex : ∃ i, i < s.slots.length ∧
      ∃ y, s.slots[probe s.slots.length k i]? = some y ∧ ∀ k, y ≠ Slot.full k := by
    obtain ⟨i, hi, he⟩ := probe_surj hI.pos hI.cop k hpl
    exact ⟨i, hi, y, by rw [he]; exact hp, hy⟩
  classical
  have hmin := fun m => Nat.find_min (m := m) hex
  obtain ⟨hi, y', hy1, hy2⟩ := Nat.find_spec hex
  generalize Nat.find hex = i' at hmin hi hy1
  have hpath : ∀ j, j < i' → ∃ k', s.slots[probe s.slots.length k j]? = some (Slot.full k') := by
    intro j hj
    have := hmin j hj
    obtain ⟨x, hx⟩ := getElem?_of_lt (probe_lt hI.pos k j)
    cases x with
    | full k' => exact ⟨k', hx⟩
    | empty => exact absurd ⟨by omega, Slot.empty, hx, by simp⟩ this
    | tomb => exact absurd ⟨by omega, Slot.tomb, hx, by simp⟩ this
  have hperm := keys_set_full hy1 hy2 k
  have hraw : insertRaw s k = insertLoop s k s.slots.length (probe s.slots.length k 0) := by
    unfold insertRaw
    rw [if_neg (by have := hI.pos; omega), probe_zero]
  rw [hraw]
  rcases insertLoop_w hy1 hy2 s.slots.length 0 (by omega) (by omega) (fun j _ h => hpath j h) with
    ⟨h1, h2⟩ | h1
  · refine ⟨s, h1, hI, rfl, by omega, fun k' => ⟨Or.inr, ?_⟩⟩
    rintro (rfl | h)
    · exact h2
    · exact h
  · refine ⟨_, h1, ?_, by simp, by simp, fun k' => by rw [hperm.mem_iff, List.mem_cons]⟩
    refine ⟨by simpa using hI.pos, by simpa using hI.cop, ?_, ?_, ?_⟩
    · intro q k2 hq
      simp only [List.length_set] at hq ⊢
      by_cases hqp : q = probe s.slots.length k i'
      · subst hqp
        rw [List.getElem?_set_self (probe_lt hI.pos k i')] at hq
        simp at hq
        subst hq
        refine ⟨i', hi, rfl, ?_⟩
        intro j hj
        rw [List.getElem?_set]
        split
        · split <;> simp
        · obtain ⟨k', h'⟩ := hpath j hj
          rw [h']; simp
      · rw [List.getElem?_set_ne (fun e => hqp e.symm)] at hq
        obtain ⟨i, h1, h2, h3⟩ := hI.reach q k2 hq
        refine ⟨i, h1, h2, ?_⟩
        intro j hj
        rw [List.getElem?_set]
        split
        · split <;> simp
        · exact h3 j hj
    · rw [hperm.length_eq, List.length_cons]
      have := hI.cnt
      simp only []
      omega
    · simp only [List.length_set]; omega

theorem insertFull_raw_w (ss : List Slot) : ∀ {t : PSet}, WInv t →
    t.cnt + (keys ss).length ≤ t.slots.length →
    ∃ t', insertFull insertRaw ss t = .ok t' ∧ WInv t' ∧
      t'.slots.length = t.slots.length ∧ t'.cnt ≤ t.cnt + (keys ss).length ∧
      ∀ k', k' ∈ keys t'.slots ↔ k' ∈ keys ss ∨ k' ∈ keys t.slots := by
  induction ss with
  | nil => intro t hI _; exact ⟨t, rfl, hI, rfl, by simp, by simp⟩
  | cons a ss ih =>
    intro t hI hroom
    cases a with
    | empty => simpa [insertFull] using ih hI (by simpa using hroom)
    | tomb => simpa [insertFull] using ih hI (by simpa using hroom)
    | full k =>
      simp only [keys_full, List.length_cons] at hroom
      obtain ⟨t1, h1, hI1, hl1, hc1, hm1⟩ := insertRaw_w hI k (by omega)
      obtain ⟨t2, h2, hI2, hl2, hc2, hm2⟩ := ih hI1 (by omega)
      refine ⟨t2, by simp [insertFull, h1, h2], hI2, by omega, by simp; omega, fun k' => ?_⟩
      rw [hm2, hm1, keys_full, List.mem_cons]
      constructor
      · rintro (h | h | h) <;> simp [h]
      · rintro ((h | h) | h) <;> simp [h]

theorem insert_w {s : PSet} (hI : WInv s) (k : Key) :
    ∃ s', insert s k = .ok s' ∧ WInv s' ∧
      ∀ k', k' ∈ keys s'.slots ↔ k' = k ∨ k' ∈ keys s.slots := by
  unfold insert
  by_cases hf : s.cnt ≥ s.slots.length
  · rw [if_pos hf]
    have hle := (keys_length_lt_of_nonfull (ss := s.slots)).1
    have hpos := hI.pos
    have hcnt := hI.cnt
    obtain ⟨t, h1, hI1, hl1, hc1, hm1⟩ := insertFull_raw_w s.slots
      (inv_init (n := s.slots.length * 2) (by omega) (coprime_double hI.cop)).weak
      (by simp [init]; omega)
    have hl : t.slots.length = s.slots.length * 2 := by simpa [init] using hl1
    have hm : ∀ k', k' ∈ keys t.slots ↔ k' ∈ keys s.slots := by
      intro k'; rw [hm1]; simp [init, keys_replicate_empty]
    have hkl : (keys t.slots).length ≤ s.cnt := by
      have := hI1.cnt
      simp [init] at hc1
      omega
    have hroom : s.cnt < t.slots.length := by have := hI.le; omega
    obtain ⟨s2, h2, hI2, hl2, hc2, hm2⟩ := insertRaw_w (s := { s with slots := t.slots })
        ⟨hI1.pos, hI1.cop, hI1.reach, hkl, Nat.le_of_lt hroom⟩ k hroom
    refine ⟨s2, by rw [h1]; exact h2, hI2, fun k' => ?_⟩
    rw [hm2]; simp [hm]
  · rw [if_neg hf]
    obtain ⟨s2, h2, hI2, hl2, hc2, hm2⟩ := insertRaw_w hI k (by omega)
    exact ⟨s2, by simpa using h2, hI2, hm2⟩

theorem delete_w {s : PSet} (hI : WInv s) (k : Key) :
    ∃ s', delete s k = .ok (s', decide (k ∈ keys s.slots)) ∧ WInv s' ∧
      ∀ k', k' ≠ k → (k' ∈ keys s'.slots ↔ k' ∈ keys s.slots) := by
  by_cases hk : k ∈ keys s.slots
  · obtain ⟨p, hp⟩ := mem_keys.1 hk
    obtain ⟨i, hi, he, hj⟩ := hI.reach p k hp
    subst he
    obtain ⟨q, hq, hdel⟩ := deleteLoop_present hp s.slots.length 0 (by omega) (by omega) (by
      intro j _ hji
      obtain ⟨x, hx⟩ := getElem?_of_lt (probe_lt hI.pos k j)
      exact ⟨x, hx, fun e => hj j hji (by rw [hx, e])⟩)
    have hperm := keys_set_tomb hq
    have hlen := hperm.length_eq
    have hcnt := hI.cnt
    simp only [List.length_cons] at hlen
    refine ⟨_, by
      unfold delete
      rw [if_neg (by have := hI.pos; omega), probe_zero, decide_eq_true hk]; exact hdel, ?_, ?_⟩
    · refine ⟨by simpa using hI.pos, by simpa using hI.cop, ?_, by simp only []; omega, ?_⟩
      · intro r k2 hr
        simp only [List.length_set] at hr ⊢
        rw [List.getElem?_set] at hr
        split at hr
        · split at hr <;> simp at hr
        · obtain ⟨i, h1, h2, h3⟩ := hI.reach r k2 hr
          refine ⟨i, h1, h2, ?_⟩
          intro j hj
          rw [List.getElem?_set]
          split
          · split <;> simp
          · exact h3 j hj
      · have := hI.le
        simp only [List.length_set]; omega
    · intro k' hk'
      rw [hperm.mem_iff, List.mem_cons]
      simp [hk']
  · refine ⟨s, ?_, hI, fun k' _ => Iff.rfl⟩
    unfold delete
    rw [if_neg (by have := hI.pos; omega), probe_zero, deleteLoop_absent hI.pos hk,
      decide_eq_false hk]

end Verif.PtrSet
