import Verif.Throw.Flow
import Verif.Count.Core
/-!
# Reservations held along the ways through a function
-/
namespace Verif.Throw
open Verif Verif.IR Verif.Edit Verif.Guard Verif.Count

theorem held_append (f : Fn) (q : Nat) (l m : List Nat) : held f q (l ++ m) = m.foldl (heldStep f q) (held f q l) := by simp [held]

/-- Instructions that neither make nor release the reservation. -/
theorem fold_idle {f : Fn} {q : Nat} : ∀ {l : List Nat} {h : Bool}, (∀ x ∈ l, x ≠ q ∧ releases (f.insn x) q = false) → l.foldl (heldStep f q) h = h := by
  intro l
  induction l with
  | nil => intro h _; rfl
  | cons x l ih =>
    intro h hl
    have := hl x (List.mem_cons_self ..)
    rw [List.foldl_cons, ih fun y hy => hl y (List.mem_cons_of_mem _ hy), heldStep, if_neg this.1, this.2]
    simp

theorem fold_keep {f : Fn} {q : Nat} : ∀ {l : List Nat}, (∀ x ∈ l, releases (f.insn x) q = false) → l.foldl (heldStep f q) true = true := by
  intro l
  induction l with
  | nil => intro _; rfl
  | cons x l ih =>
    intro hl
    have := hl x (List.mem_cons_self ..)
    rw [List.foldl_cons]
    have h1 : heldStep f q true x = true := by simp [heldStep, this]
    rw [h1]
    exact ih fun y hy => hl y (List.mem_cons_of_mem _ hy)

theorem fold_gen {f : Fn} {q : Nat} {l : List Nat} (hq : q ∈ l) (hl : ∀ x ∈ l, releases (f.insn x) q = false) (h : Bool) : l.foldl (heldStep f q) h = true := by
  obtain ⟨A, B, rfl⟩ := List.append_of_mem hq
  rw [List.foldl_append, List.foldl_cons]
  have : heldStep f q (A.foldl (heldStep f q) h) q = true := by simp [heldStep]
  rw [this]
  exact fold_keep fun x hx => hl x (by simp [hx])

/-- Released and not made again. -/
theorem fold_kill {f : Fn} {q : Nat} {A B : List Nat} {x : Nat} (hx : releases (f.insn x) q = true) (hxq : x ≠ q) (hB : q ∉ B) (h : Bool) :
    (A ++ x :: B).foldl (heldStep f q) h = false := by
  rw [List.foldl_append, List.foldl_cons]
  have : heldStep f q (A.foldl (heldStep f q) h) x = false := by simp [heldStep, hx, hxq]
  rw [this]
  clear this
  induction B with
  | nil => rfl
  | cons y B ih =>
    have h1 : y ≠ q := fun e => hB (by simp [e])
    rw [List.foldl_cons]
    have h2 : heldStep f q false y = false := by simp [heldStep, h1]
    rw [h2]
    exact ih fun hm => hB (List.mem_cons_of_mem _ hm)

theorem heldWay_cons (f : Fn) (q b : Nat) (w : List Nat) : heldWay f q (b :: w) = (f.body b).foldl (heldStep f q) (heldWay f q w) := by
  simp [heldWay, held]

theorem Ways.conn {f : Fn} {w : List Nat} (h : Ways f w) : ∀ b ∈ w, Conn f b := by
  induction h with
  | entry => intro b hb; rw [List.mem_singleton.1 hb]; exact .entry
  | @step a b w hw hb ih =>
    intro c hc
    rcases List.mem_cons.1 hc with e | hm
    · rw [e]; exact .step (ih a (List.mem_cons_self ..)) hb
    · exact ih c hm

theorem Conn.way {f : Fn} {b : Nat} (h : Conn f b) : ∃ w, Ways f (b :: w) := by
  induction h with
  | entry => exact ⟨_, .entry⟩
  | step _ hb ih => obtain ⟨w, hw⟩ := ih; exact ⟨_, .step hw hb⟩

/-- What is kept is held on all ways. -/
theorem Kept.held {f : Fn} (hs : Shape f) (he : f.preds f.entry = []) {q b : Nat} (h : Kept f q b) : ∀ {w}, Ways f (b :: w) → heldWay f q (b :: w) = true := by
  induction h with
  | here h1 _ h2 => intro w _; rw [heldWay_cons]; exact fold_gen h1 h2 _
  | @join b h1 h2 h3 ih =>
    intro w hw
    cases hw with
    | entry => exact absurd he h1
    | @step a _ w hw hb =>
      have ha := Conn.mem hs (hw.conn a (List.mem_cons_self ..))
      have hp := (hs.graph.sym a ha b ((hs.graph.succs a ha).2 b hb)).1 hb
      rw [heldWay_cons, ih a hp hw]
      exact fold_keep h3

/-- A reservation is not released in front of the place where it is made, in the same block. -/
def MadeFirst (f : Fn) : Prop := ∀ b ∈ f.allBbs, ∀ A q B, f.body b = A ++ q :: B → ∀ x ∈ A, releases (f.insn x) q = false

/-- In a function without loops, what is held on all ways is kept. -/
theorem kept_of_held {f : Fn} (hs : Shape f) (he : f.preds f.entry = []) (hm : MadeFirst f) {rank : Nat → Nat}
    (hr : ∀ b ∈ f.allBbs, ∀ p ∈ f.preds b, rank p < rank b) (hpc : ∀ b, Conn f b → ∀ p ∈ f.preds b, Conn f p) {q : Nat} (hq : isReserve (f.insn q) = true) :
    ∀ (n : Nat) {b : Nat}, rank b ≤ n → Conn f b → (∀ w, Ways f (b :: w) → heldWay f q (b :: w) = true) → Kept f q b := by
  intro n
  induction n with
  | zero =>
    intro b hb hc hw
    exact aux hs he hm hr hpc hq (fun p hp => by have := hr b (Conn.mem hs hc) p hp; omega) hc hw
  | succ n ih =>
    intro b hb hc hw
    exact aux hs he hm hr hpc hq (fun p hp h1 h2 => ih (by have := hr b (Conn.mem hs hc) p hp; omega) h1 h2) hc hw
where
  aux {f : Fn} (hs : Shape f) (he : f.preds f.entry = []) (hm : MadeFirst f) {rank : Nat → Nat}
    (_hr : ∀ b ∈ f.allBbs, ∀ p ∈ f.preds b, rank p < rank b) (hpc : ∀ b, Conn f b → ∀ p ∈ f.preds b, Conn f p) {q : Nat} (hq : isReserve (f.insn q) = true) {b : Nat}
    (ih : ∀ p ∈ f.preds b, Conn f p → (∀ w, Ways f (p :: w) → heldWay f q (p :: w) = true) → Kept f q p) (hc : Conn f b)
    (hw : ∀ w, Ways f (b :: w) → heldWay f q (b :: w) = true) : Kept f q b := by
    have hbm := Conn.mem hs hc
    obtain ⟨w0, hw0⟩ := Conn.way hc
    have hnr : releases (f.insn q) q = false := by
      unfold isReserve at hq
      simp only [Bool.and_eq_true, decide_eq_true_eq] at hq
      simp [releases, isRelease, hq]
    have hk : Keeps f q b := by
      intro x hx
      cases hrx : releases (f.insn x) q with
      | false => rfl
      | true =>
        exfalso
        obtain ⟨A, B, hAB⟩ := List.append_of_mem hx
        have hxq : x ≠ q := fun e => by rw [e, hnr] at hrx; cases hrx
        have hB : q ∉ B := by
          intro hqB
          obtain ⟨B1, B2, rfl⟩ := List.append_of_mem hqB
          have := hm b hbm (A ++ x :: B1) q B2 (by rw [hAB]; simp) x (by simp)
          rw [hrx] at this; cases this
        have := hw w0 hw0
        rw [heldWay_cons, hAB, fold_kill hrx hxq hB] at this
        cases this
    by_cases hqb : q ∈ f.body b
    · exact .here hqb hq hk
    · have hidle : ∀ w, heldWay f q (b :: w) = heldWay f q w := by
        intro w
        rw [heldWay_cons]
        exact fold_idle fun x hx => ⟨fun e => hqb (e ▸ hx), hk x hx⟩
      have hne : f.preds b ≠ [] := by
        cases hw0 with
        | entry =>
          have := hw [] .entry
          rw [hidle] at this
          simp [heldWay, Throw.held] at this
        | @step a _ w hwa hb =>
          have ha := Conn.mem hs (hwa.conn a (List.mem_cons_self ..))
          have hp := (hs.graph.sym a ha b ((hs.graph.succs a ha).2 b hb)).1 hb
          exact fun e => by rw [e] at hp; cases hp
      refine .join hne (fun p hp => ih p hp (hpc b hc p hp) fun w hwp => ?_) hk
      have hpm := (hs.graph.preds b hbm).2 p hp
      have := hw (p :: w) (.step hwp ((hs.graph.sym p hpm b hbm).2 hp))
      rwa [hidle] at this

/-! ## Executions follow ways -/

theorem call_not {o : Op} {f : Fn} {q x : Nat} (hq : isReserve (f.insn q) = true) (ho : (f.insn x).op = o) (hc : o ≠ .call) : x ≠ q ∧ releases (f.insn x) q = false := by
  unfold isReserve at hq
  simp only [Bool.and_eq_true, decide_eq_true_eq] at hq
  refine ⟨?_, ?_⟩
  · intro e; subst e; rw [ho] at hq; exact hc hq.1
  · simp [releases, isRelease, ho, hc]

/-- Where an execution is: on a way through the function, having executed its instructions. -/
def OnWay (f : Fn) (c : Nat) (r H : List Nat) : Prop :=
  ∃ w A, Ways f (c :: w) ∧ f.body c = A ++ r ∧ ∀ q, isReserve (f.insn q) = true → held f q H = A.foldl (heldStep f q) (heldWay f q w)

theorem onWay_step {W : World} {f : Fn} (hs : Shape f) {c c1 : Nat} {r r1 H : List Nat} {σ τ : St} (h : OnWay f c r H) (hst : step W f c r σ = .goto c1 r1 τ) :
    OnWay f c1 r1 (H ++ r.take 1) := by
  obtain ⟨w, A, hw, hA, hh⟩ := h
  have hcm := Conn.mem hs (hw.conn c (List.mem_cons_self ..))
  rcases step_cases hst with ⟨x, rfl, rfl, hp, _⟩ | ⟨hway, rfl, _⟩
  · refine ⟨w, A ++ [x], hw, by rw [hA]; simp, fun q hq => ?_⟩
    rw [held_append, hh q hq]
    simp
  · have hsu : c1 ∈ f.succs c := Way.succ hs hcm (fun x hx => by rw [hA]; exact List.mem_append_right _ hx) hway
    have hc1 := (hs.graph.succs c hcm).2 c1 hsu
    obtain ⟨A1, hA1⟩ := List.dropWhile_suffix (fun x => (f.insn x).op == .phi) (l := f.body c1)
    refine ⟨c :: w, (f.body c1).takeWhile (fun x => (f.insn x).op == .phi), .step hw hsu, (List.takeWhile_append_dropWhile ..).symm, fun q hq => ?_⟩
    have hr : r.take 1 = r := by
      cases r with
      | nil => rfl
      | cons x r' =>
        have hl := Way.leaves hway
        have := hs.last c hcm A x r' hA hl
        rw [this]; rfl
    rw [fold_idle fun x hx => call_not hq (by simpa using takeWhile_imp hx) (by decide), hr, held_append, hh q hq, heldWay_cons, hA, List.foldl_append]

theorem onWay_start (f : Fn) : OnWay f f.entry (f.body f.entry) [] := ⟨[], [], .entry, rfl, fun _ _ => rfl⟩

end Verif.Throw
