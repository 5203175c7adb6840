import Verif.Arr.Lemmas
/-!
# C01: the dynamic array behaves as a list

Specification: `Op.spec` says what each call of the array API does to a mathematical list.
-/
namespace Verif.Arr
open Verif
variable {α : Type} [DecidableEq α]

/-- One call of the array API on the array under test.  `merge` gets an arbitrary second array, built
by pushing the given elements onto an initialised array. -/
inductive Op (α : Type) where
  | push (v : α)
  | pushUnique (v : α)
  | erase (i : Nat)
  | clear
  | merge (m : List α)
  | clone

/-- Specification of the calls on lists. -/
def Op.spec : Op α → List α → List α
  | .push v, l => l ++ [v]
  | .pushUnique v, l => if v ∈ l then l else l ++ [v]
  | .erase i, l => l.eraseIdx i
  | .clear, _ => []
  | .merge m, l => m.foldl (fun l v => if v ∈ l then l else l ++ [v]) l
  | .clone, l => l

/-- Push all elements of `m` onto `a`. -/
def pushAll (a : Arr α) : List α → Out (Arr α)
  | [] => .ok a
  | v :: m => do let a' ← push a v; pushAll a' m

/-- Running a call on the C array. -/
def Op.run : Op α → Arr α → Out (Arr α)
  | .push v, a => Arr.push a v
  | .pushUnique v, a => Arr.pushUnique a v
  | .erase i, a => Arr.erase a i
  | .clear, a => .ok (Arr.clear a)
  | .merge m, a => do let b ← pushAll init m; Arr.merge a b
  | .clone, a => Arr.clone a

/-- Running a history. -/
def runAll : List (Op α) → Arr α → Out (Arr α)
  | [], a => .ok a
  | o :: os, a => do let a' ← o.run a; runAll os a'

theorem pushAll_rep {a : Arr α} {l : List α} (h : Rep a l) (m : List α) :
    ∃ a', pushAll a m = .ok a' ∧ Rep a' (l ++ m) := by
  induction m generalizing a l with
  | nil => exact ⟨a, rfl, by simpa using h⟩
  | cons v m ih =>
    obtain ⟨a', h1, h2⟩ := rep_push h v
    obtain ⟨a'', h3, h4⟩ := ih h2
    exact ⟨a'', by simp [pushAll, h1, h3], by simpa using h4⟩

theorem op_rep {a : Arr α} {l : List α} (h : Rep a l) (o : Op α) :
    ∃ a', o.run a = .ok a' ∧ Rep a' (o.spec l) := by
  cases o with
  | push v => exact rep_push h v
  | pushUnique v => exact rep_pushUnique h v
  | erase i => exact rep_erase h i
  | clear => exact ⟨_, rfl, rep_clear a⟩
  | merge m =>
    obtain ⟨b, h1, h2⟩ := pushAll_rep (rep_init (α := α)) m
    obtain ⟨a', h3, h4⟩ := rep_merge h h2
    exact ⟨a', by simp [Op.run, h1, h3], by simpa [Op.spec] using h4⟩
  | clone => exact rep_clone h

theorem runAll_rep (os : List (Op α)) {a : Arr α} {l : List α} (h : Rep a l) :
    ∃ a', runAll os a = .ok a' ∧ Rep a' (os.foldl (fun l o => o.spec l) l) := by
  induction os generalizing a l with
  | nil => exact ⟨a, rfl, h⟩
  | cons o os ih =>
    obtain ⟨a', h1, h2⟩ := op_rep h o
    obtain ⟨a'', h3, h4⟩ := ih h2
    exact ⟨a'', by simp [runAll, h1, h3], h4⟩

/-- **C01.** Every history of API calls on an initialised array succeeds (no error, abort or
out-of-bounds access), and afterwards the number of elements and every `get` answer are those of the
list obtained by the same calls; reading past the end gives NULL (`none`). -/
theorem C01_array_is_list (os : List (Op α)) :
    ∃ a, runAll os (init : Arr α) = .ok a ∧
      a.num = (os.foldl (fun l o => o.spec l) []).length ∧
      ∀ i, get a i = .ok (os.foldl (fun l o => o.spec l) [])[i]? := by
  obtain ⟨a, h1, h2⟩ := runAll_rep os (rep_init (α := α))
  exact ⟨a, h1, h2.num, rep_get h2⟩

/-- A concrete history using every call (and reallocating twice). -/
example : ∃ a, runAll [Op.push 1, .push 2, .push 3, .pushUnique 2, .push 4, .push 5, .erase 1,
      .clone, .merge [5, 7, 7], .erase 100] (init : Arr Nat) = .ok a ∧
    get a 0 = .ok (some 1) ∧ get a 4 = .ok (some 7) ∧ get a 5 = .ok none :=
  ⟨_, rfl, rfl, rfl, rfl⟩

end Verif.Arr
