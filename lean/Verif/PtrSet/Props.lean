import Verif.PtrSet.Lemmas
/-!
# C02, C03, C04: the pointer hash set

The specification of a history of `insert`/`delete` calls is `present`: a key is present iff the last
call that mentions it is an insert.
-/
namespace Verif.PtrSet
open Verif

/-- One call on the set. -/
inductive HOp where
  | ins (k : Key)
  | del (k : Key)
  deriving DecidableEq

def HOp.key : HOp → Key
  | .ins k => k
  | .del k => k

/-- Specification: the last call mentioning `k` is an insert. -/
def present (h : List HOp) (k : Key) : Bool :=
  match h.reverse.find? (fun o => o.key == k) with
  | some (.ins _) => true
  | _ => false

/-- Run one call on the C set. -/
def HOp.run : HOp → PSet → Out PSet
  | .ins k, s => PtrSet.insert s k
  | .del k, s => do let (s', _) ← PtrSet.delete s k; Out.ok s'

/-- Run a history from left to right. -/
def runAll : List HOp → PSet → Out PSet
  | [], s => .ok s
  | o :: os, s => do let s' ← o.run s; runAll os s'

/-- The histories on which the set is used correctly: a key that is already present is only inserted
again while no delete has happened. -/
def Safe (h : List HOp) : Prop :=
  ∀ h1 k h2, h = h1 ++ .ins k :: h2 → present h1 k = true → ∀ k', HOp.del k' ∉ h1

/-- The keys mentioned by a history that are present at its end, without repetition. -/
def presentKeys (h : List HOp) : List Key := ((h.map HOp.key).dedup).filter (present h)

theorem prime31 : Nat.Prime 31 := by decide

theorem present_append_ins (h : List HOp) (k k' : Key) :
    present (h ++ [.ins k]) k' = (decide (k' = k) || present h k') := by
  simp only [present, List.reverse_append, List.reverse_cons, List.reverse_nil, List.nil_append,
    List.singleton_append, List.find?_cons, HOp.key]
  by_cases e : k = k'
  · simp [e]
  · have : (k == k') = false := by simp [e]
    have h2 : ¬ k' = k := fun h => e h.symm
    simp [this, h2]

theorem present_append_del (h : List HOp) (k k' : Key) :
    present (h ++ [.del k]) k' = (!decide (k' = k) && present h k') := by
  simp only [present, List.reverse_append, List.reverse_cons, List.reverse_nil, List.nil_append,
    List.singleton_append, List.find?_cons, HOp.key]
  by_cases e : k = k'
  · simp [e]
  · have : (k == k') = false := by simp [e]
    have h2 : ¬ k' = k := fun h => e h.symm
    simp [this, h2]

theorem present_mentioned {h : List HOp} {k : Key} (hp : present h k = true) :
    k ∈ h.map HOp.key := by
  unfold present at hp
  split at hp
  · rename_i k' hf
    have h1 := List.mem_of_find?_eq_some hf
    have h2 := List.find?_some hf
    simp [HOp.key] at h2
    subst h2
    exact List.mem_map.2 ⟨_, by simpa using h1, rfl⟩
  · simp at hp

theorem runAll_append (a b : List HOp) (s : PSet) :
    runAll (a ++ b) s = (runAll a s >>= fun s' => runAll b s') := by
  induction a generalizing s with
  | nil => rfl
  | cons o a ih =>
    simp only [List.cons_append, runAll]
    cases o.run s <;> simp [ih]

theorem runAll_w (n : Nat) (hn : 0 < n) (hc : Nat.Coprime 31 n) (h : List HOp) :
    ∃ s, runAll h (init n) = .ok s ∧ WInv s ∧
      ∀ k, present h k = true → k ∈ keys s.slots := by
  induction h using List.reverseRecOn with
  | nil => exact ⟨_, rfl, (inv_init hn hc).weak, by simp [present]⟩
  | append_singleton h o ih =>
    obtain ⟨s, h1, hI, hm⟩ := ih
    rw [runAll_append, h1]
    cases o with
    | ins k =>
      obtain ⟨s', h2, hI', hm'⟩ := insert_w hI k
      refine ⟨s', by simp [runAll, HOp.run, h2], hI', fun k' hk' => ?_⟩
      rw [present_append_ins] at hk'
      simp at hk'
      rw [hm']
      rcases hk' with e | e
      · exact Or.inl e
      · exact Or.inr (hm k' e)
    | del k =>
      obtain ⟨s', h2, hI', hm'⟩ := delete_w hI k
      refine ⟨s', by simp [runAll, HOp.run, h2], hI', fun k' hk' => ?_⟩
      rw [present_append_del] at hk'
      simp at hk'
      rw [hm' k' hk'.1]
      exact hm k' hk'.2

theorem Safe.prefix {h : List HOp} {o : HOp} (hs : Safe (h ++ [o])) : Safe h := by
  intro h1 k h2 he
  exact hs h1 k (h2 ++ [o]) (by simp [he])

theorem runAll_safe (n : Nat) (hn : 0 < n) (hc : Nat.Coprime 31 n) (h : List HOp) (hs : Safe h) :
    ∃ s, runAll h (init n) = .ok s ∧ Inv s ∧ ((∀ k, HOp.del k ∉ h) → NoTomb s) ∧
      ∀ k, k ∈ keys s.slots ↔ present h k = true := by
  induction h using List.reverseRecOn with
  | nil => exact ⟨_, rfl, inv_init hn hc, fun _ => noTomb_init n,
      by simp [present, init, keys_replicate_empty]⟩
  | append_singleton h o ih =>
    obtain ⟨s, h1, hI, hT, hm⟩ := ih hs.prefix
    rw [runAll_append, h1]
    cases o with
    | ins k =>
      by_cases hk : present h k = true
      · have hnd := hs h k [] rfl hk
        obtain ⟨s', h2, hI', hT', hm'⟩ := insert_mem hI (hT hnd) k
        refine ⟨s', by simp [runAll, HOp.run, h2], hI', fun _ => hT', fun k' => ?_⟩
        rw [hm', hm, present_append_ins]; simp
      · obtain ⟨s', h2, hI', hT', hc', hp'⟩ := insert_new hI (k := k) (by rw [hm]; exact hk)
        refine ⟨s', by simp [runAll, HOp.run, h2], hI', fun hd => hT' (hT ?_), fun k' => ?_⟩
        · intro k2 hk2; exact hd k2 (by simp [hk2])
        · rw [hp'.mem_iff, List.mem_cons, hm, present_append_ins]; simp
    | del k =>
      obtain ⟨s', h2, hI', hm'⟩ := delete_mem hI k
      refine ⟨s', by simp [runAll, HOp.run, h2], hI', fun hd => absurd (hd k) (by simp), fun k' => ?_⟩
      rw [hm', hm, present_append_del]; simp

/-- **C02 (partial).** For every initial size that is positive and not a multiple of 31 and every
safe history, `exists` answers exactly `present`, and the element count is the number of present
keys.  Missing: histories that re-insert a present key after a delete, see `C02_violated`. -/
theorem C02_membership_partial (n : Nat) (hn : 0 < n) (h31 : ¬ 31 ∣ n) (h : List HOp) (hs : Safe h) :
    ∃ s, runAll h (init n) = .ok s ∧
      (∀ k, «exists» s k = .ok (present h k)) ∧ s.cnt = (presentKeys h).length := by
  have hc : Nat.Coprime 31 n := (Nat.Prime.coprime_iff_not_dvd prime31).2 h31
  obtain ⟨s, h1, hI, _, hm⟩ := runAll_safe n hn hc h hs
  refine ⟨s, h1, fun k => ?_, ?_⟩
  · rw [exists_spec hI]
    congr 1
    rw [Bool.eq_iff_iff, decide_eq_true_iff, hm]
  · rw [hI.cnt]
    apply List.Perm.length_eq
    unfold presentKeys
    rw [List.perm_ext_iff_of_nodup hI.nodup ((List.nodup_dedup _).filter _)]
    intro k
    rw [hm]
    simp only [presentKeys, List.mem_filter, List.mem_dedup]
    exact ⟨fun h => ⟨present_mentioned h, h⟩, And.right⟩

/-- **C02/C04 (all histories).** From every positive initial size that is not a multiple of 31, in
particular from the default size 8, *every* history of inserts and deletes runs to completion (the
"Impossible" abort and out-of-bounds accesses are unreachable), and a key whose last call is an insert
is always found. -/
theorem C04_insert_never_fails (n : Nat) (hn : 0 < n) (h31 : ¬ 31 ∣ n) (h : List HOp) :
    ∃ s, runAll h (init n) = .ok s ∧
      ∀ k, present h k = true → «exists» s k = .ok true := by
  have hc : Nat.Coprime 31 n := (Nat.Prime.coprime_iff_not_dvd prime31).2 h31
  obtain ⟨s, h1, hI, hm⟩ := runAll_w n hn hc h
  exact ⟨s, h1, fun k hk => by rw [exists_spec_w hI, decide_eq_true (hm k hk)]⟩

/-- The default initial size (`INIT_PTRSET_DEF`) meets the hypotheses. -/
example (h : List HOp) : ∃ s, runAll h (init 8) = .ok s ∧
    ∀ k, present h k = true → «exists» s k = .ok true :=
  C04_insert_never_fails 8 (by decide) (by decide) h

/-- A safe history that reinserts, deletes and grows is covered. -/
example : Safe [.ins 1, .ins 9, .ins 1, .ins 17, .del 9, .ins 33, .del 2] := by
  intro h1 k h2 he hp k' hmem
  rcases h1 with _ | ⟨a, _ | ⟨b, _ | ⟨c, _ | ⟨d, _ | ⟨e, _ | ⟨f, _ | ⟨g, h1⟩⟩⟩⟩⟩⟩⟩ <;>
    simp at he
  all_goals try (simp at hmem; done)
  all_goals try (obtain ⟨rfl, he⟩ := he; simp at hmem; done)
  all_goals
    first
    | (obtain ⟨rfl, rfl, he⟩ := he; simp at hmem; done)
    | (obtain ⟨rfl, rfl, rfl, he⟩ := he; simp at hmem; done)
    | (obtain ⟨rfl, rfl, rfl, rfl, rfl, rfl, he⟩ := he; revert hp; decide)
    | skip

/-- **C02 is violated** by the code: keys 8 and 16 collide in a table of 8 slots.  After
`insert 8; insert 16; delete 8; insert 16; delete 16` the key 16 was deleted last, yet `exists`
still answers true (the re-insert of 16 filled the tombstone of 8 and created a duplicate). -/
theorem C02_violated :
    ∃ (h : List HOp) (k : Key) (s : PSet), runAll h (init 8) = .ok s ∧
      present h k = false ∧ «exists» s k = .ok true :=
  ⟨[.ins 8, .ins 16, .del 8, .ins 16, .del 16], 16, _, rfl, by decide, by decide⟩

/-- The element count is wrong as well: two keys are counted where one is present. -/
theorem C02_count_violated :
    ∃ (h : List HOp) (s : PSet), runAll h (init 8) = .ok s ∧
      s.cnt = 2 ∧ (presentKeys h).length = 1 :=
  ⟨[.ins 8, .ins 16, .del 8, .ins 16], _, rfl, by decide, by decide⟩

/-- **C04 is violated** for tables whose size is a multiple of 31 (such sizes arise from `union`,
`intersec` and `clone`, which size the result by element counts): with 31 slots the probe sequence
stays on one slot, and inserting two colliding keys aborts although 30 slots are free. -/
theorem C04_violated_size31 :
    runAll [.ins 31, .ins 62] (init 31) = .crit := by decide

/-- Any set obtained by insertions only, from a positive size that is not a multiple of 31. -/
def Built (s : PSet) (m : Key → Prop) : Prop :=
  ∃ (n : Nat) (ks : List Key), 0 < n ∧ ¬ 31 ∣ n ∧ runAll (ks.map HOp.ins) (init n) = .ok s ∧ ∀ k, m k ↔ k ∈ ks

theorem present_map_ins (ks : List Key) (k : Key) : present (ks.map HOp.ins) k = decide (k ∈ ks) := by
  induction ks using List.reverseRecOn with
  | nil => simp [present]
  | append_singleton ks a ih =>
    rw [List.map_append, List.map_singleton, present_append_ins, ih]
    by_cases h : k = a <;> simp [h]

theorem Built.inv {s : PSet} {m : Key → Prop} (h : Built s m) :
    Inv s ∧ NoTomb s ∧ ∀ k, k ∈ keys s.slots ↔ m k := by
  obtain ⟨n, ks, hn, h31, hr, hm⟩ := h
  have hc : Nat.Coprime 31 n := (Nat.Prime.coprime_iff_not_dvd prime31).2 h31
  have hnd : ∀ k, HOp.del k ∉ ks.map HOp.ins := by simp
  have hs : Safe (ks.map HOp.ins) := by
    intro h1 k h2 he _ k' hk'
    exact hnd k' (by rw [he]; simp [hk'])
  obtain ⟨s', h1, hI, hT, hm'⟩ := runAll_safe n hn hc _ hs
  rw [hr] at h1
  cases h1
  refine ⟨hI, hT hnd, fun k => ?_⟩
  rw [hm', present_map_ins, hm]; simp

/-- `r` answers membership queries for exactly the keys of `m`. -/
def Answers (r : PSet) (m : Key → Prop) : Prop :=
  ∀ k, (m k → «exists» r k = .ok true) ∧ (¬ m k → «exists» r k = .ok false)

theorem answers_of {r : PSet} (hI : Inv r) {m : Key → Prop} (h : ∀ k, k ∈ keys r.slots ↔ m k) :
    Answers r m := by
  intro k
  rw [exists_spec hI]
  exact ⟨fun hk => by rw [decide_eq_true ((h k).2 hk)],
    fun hk => by rw [decide_eq_false (fun h' => hk ((h k).1 h'))]⟩

/-- **C03 clone.** -/
theorem C03_clone {s : PSet} {m : Key → Prop} (hs : Built s m) :
    ∃ r, clone s = .ok r ∧ Answers r m := by
  obtain ⟨hI, hT, hm⟩ := hs.inv
  obtain ⟨r, h1, hI', _, hm'⟩ := insertFull_mem s.slots (inv_init hI.pos hI.cop) (noTomb_init _)
  exact ⟨r, h1, answers_of hI' (fun k => by rw [hm', hm]; simp [init, keys_replicate_empty])⟩

/-- **C03 add** (`a += b`). -/
theorem C03_add {a b : PSet} {ma mb : Key → Prop} (ha : Built a ma) (hb : Built b mb) :
    ∃ r, add a b = .ok r ∧ Answers r (fun k => ma k ∨ mb k) := by
  obtain ⟨hI, hT, hm⟩ := ha.inv
  obtain ⟨_, _, hmb⟩ := hb.inv
  obtain ⟨r, h1, hI', _, hm'⟩ := insertFull_mem b.slots hI hT
  exact ⟨r, h1, answers_of hI' (fun k => by rw [hm', hm, hmb]; exact Or.comm)⟩

/-- **C03 minus** (`a -= b`). -/
theorem C03_minus {a b : PSet} {ma mb : Key → Prop} (ha : Built a ma) (hb : Built b mb) :
    ∃ r, minus a b = .ok r ∧ Answers r (fun k => ma k ∧ ¬ mb k) := by
  obtain ⟨hI, hT, hm⟩ := ha.inv
  obtain ⟨_, _, hmb⟩ := hb.inv
  obtain ⟨r, h1, hI', hm'⟩ := minusLoop_mem b.slots hI
  exact ⟨r, h1, answers_of hI' (fun k => by rw [hm', hm, hmb]; exact And.comm)⟩

/-- **C03 union (partial).** Correct when the total element count is positive and not a multiple of
31.  Missing: the other totals, see `C03_union_violated_31` and `C03_union_violated_empty`. -/
theorem C03_union_partial {a b : PSet} {ma mb : Key → Prop} (ha : Built a ma) (hb : Built b mb)
    (h31 : ¬ 31 ∣ a.cnt + b.cnt) :
    ∃ r, union a b = .ok r ∧ Answers r (fun k => ma k ∨ mb k) := by
  obtain ⟨hI, hT, hm⟩ := ha.inv
  obtain ⟨hIb, _, hmb⟩ := hb.inv
  have hpos : 0 < a.cnt + b.cnt := by
    rcases Nat.eq_zero_or_pos (a.cnt + b.cnt) with h | h
    · rw [h] at h31; exact absurd (Nat.dvd_zero 31) h31
    · exact h
  have hc : Nat.Coprime 31 (a.cnt + b.cnt) :=
    (Nat.Prime.coprime_iff_not_dvd prime31).2 h31
  obtain ⟨r1, h1, hI1, hT1, hm1⟩ := insertFull_mem a.slots (inv_init hpos hc) (noTomb_init _)
  obtain ⟨r2, h2, hI2, _, hm2⟩ := insertFull_mem b.slots hI1 hT1
  refine ⟨r2, by simp [union, h1, h2], answers_of hI2 (fun k => ?_)⟩
  rw [hm2, hm1, hm, hmb]
  simp [init, keys_replicate_empty]
  exact Or.comm

/-- **C03 intersection (partial).** Correct when the first set's count is not a multiple of 31. -/
theorem C03_intersec_partial {a b : PSet} {ma mb : Key → Prop} (ha : Built a ma) (hb : Built b mb)
    (h31 : ¬ 31 ∣ a.cnt) :
    ∃ r, intersec a b = .ok r ∧ Answers r (fun k => ma k ∧ mb k) := by
  obtain ⟨hI, hT, hm⟩ := ha.inv
  obtain ⟨hIb, _, hmb⟩ := hb.inv
  have hpos : 0 < a.cnt := by
    rcases Nat.eq_zero_or_pos a.cnt with h | h
    · rw [h] at h31; exact absurd (Nat.dvd_zero 31) h31
    · exact h
  have hc : Nat.Coprime 31 a.cnt := (Nat.Prime.coprime_iff_not_dvd prime31).2 h31
  obtain ⟨r, h1, hI', _, hm'⟩ := intersecLoop_mem hIb a.slots (inv_init hpos hc) (noTomb_init _)
  exact ⟨r, h1, answers_of hI' (fun k => by rw [hm', hm, hmb]; simp [init, keys_replicate_empty])⟩

/-- **C03 iteration.** Visiting the set with `next` (until it returns NULL) yields every member
exactly once, in any set reached by a safe history. -/
theorem C03_iteration (n : Nat) (hn : 0 < n) (h31 : ¬ 31 ∣ n) (h : List HOp) (hs : Safe h) :
    ∃ s, runAll h (init n) = .ok s ∧
      (iterate s (s.slots.length + 1) none).Nodup ∧
      ∀ k, k ∈ iterate s (s.slots.length + 1) none ↔ present h k = true := by
  have hc : Nat.Coprime 31 n := (Nat.Prime.coprime_iff_not_dvd prime31).2 h31
  obtain ⟨s, h1, hI, _, hm⟩ := runAll_safe n hn hc h hs
  exact ⟨s, h1, by rw [iterate_spec]; exact hI.nodup, fun k => by rw [iterate_spec]; exact hm k⟩

/-- Two sets to which the set-algebra theorems apply. -/
example : ∃ a b, Built a (fun k => k ∈ [(1 : Key), 2, 9]) ∧ Built b (fun k => k ∈ [(2 : Key), 4]) ∧
    ¬ 31 ∣ a.cnt + b.cnt ∧ ¬ 31 ∣ a.cnt :=
  ⟨_, _, ⟨8, [1, 2, 9], by decide, by decide, rfl, fun _ => Iff.rfl⟩,
    ⟨8, [2, 4], by decide, by decide, rfl, fun _ => Iff.rfl⟩, by decide, by decide⟩

/-- **C03 union is violated** for two empty sets: the result has size 0 and the next membership query
divides by zero. -/
theorem C03_union_violated_empty :
    ∃ r, union (init 8) (init 8) = .ok r ∧ «exists» r 5 = .ub := ⟨_, rfl, rfl⟩

/-- **C03 union is violated** when the total count is a multiple of 31: with 30 + 1 colliding keys the
union aborts. -/
theorem C03_union_violated_31 :
    ∃ a b, runAll ((List.range 30).map (fun i => HOp.ins (BitVec.ofNat 64 (8 * i)))) (init 8) = .ok a ∧
      runAll [HOp.ins (8 * 31)] (init 8) = .ok b ∧ union a b = .crit := by
  refine ⟨_, _, rfl, rfl, ?_⟩
  decide +kernel

end Verif.PtrSet
