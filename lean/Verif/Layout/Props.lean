import Verif.Layout.Lemmas
/-!
# C08: block layout

`Falls g b c` (Verif/Layout/Lemmas.lean) says that control can run from the end of `b` straight into
`c`; `Next l b c` that `c` stands directly behind `b` in the list `l`.
-/
namespace Verif.Layout
open Verif

/-- Reachability along `succs`. -/
inductive Reachable (g : Graph) (entry : Nat) : Nat → Prop
  | entry : Reachable g entry entry
  | step {b c} : Reachable g entry b → c ∈ (g b).succs → Reachable g entry c

/-- C08.  On every finite, well-formed graph (at most two successors, predecessor arrays matching the
successor arrays, at most one block falling through into any block, no block falling through into the
entry, no cycle of fall-throughs) the traversal ends without error or assertion failure, and its result
lists every reachable block exactly once, begins with the entry, and puts every block directly before
the block it falls into. -/
theorem C08_layout_partial (g : Graph) (entry N : Nat) (hw : WF g entry N) :
    ∃ k, ∀ fuel, k ≤ fuel → ∃ l, layout g fuel entry = some (.ok l) ∧
      l.Nodup ∧ l.head? = some entry ∧ (∀ b, Reachable g entry b → b ∈ l) ∧
      (∀ b ∈ l, ∀ c, Falls g b c → Next l b c) := by
  obtain ⟨k, hk⟩ := layout_total hw
  refine ⟨k, fun fuel hf => ?_⟩
  obtain ⟨l, h1, h2⟩ := hk fuel hf
  refine ⟨l, h1, h2.nodup, h2.first, fun b hb => ?_, h2.adj⟩
  induction hb with
  | entry => exact List.mem_of_mem_head? h2.first
  | step _ hc ih => exact h2.closed _ ih _ hc

/-- Whatever the bound on the number of steps, a result of the traversal has these properties; this
part does not need the absence of fall-through cycles. -/
theorem C08_result (g : Graph) (entry N fuel : Nat) (r : Out (List Nat)) (hw : WF g entry N)
    (h : layout g fuel entry = some r) :
    ∃ l, r = .ok l ∧ l.Nodup ∧ l.head? = some entry ∧ (∀ b ∈ l, ∀ c ∈ (g b).succs, c ∈ l) ∧
      ∀ b ∈ l, ∀ c, Falls g b c → Next l b c := by
  obtain ⟨l, rfl, hl⟩ := reach_spec hw fuel _ _ _ (inv_start hw) h
  exact ⟨l, rfl, hl.nodup, hl.first, hl.closed, hl.adj⟩

/-- `gen_bb_succ`: afterwards the successor array of every block agrees with its final jump, and
nothing else has changed. -/
theorem C08_succ (g g' : Graph) (all : List Nat) (h : genSucc g all = .ok g') :
    (∀ b ∈ all, ∀ t, (g b).last = .ja t → (g' b).succs = [t]) ∧
    (∀ b ∈ all, ∀ t f, (g b).last = .cond t f → (g' b).succs = [t, f]) ∧
    (∀ b, (g' b).last = (g b).last ∧ (g' b).preds = (g b).preds ∧ (g' b).succs.length = (g b).succs.length ∧
      ((∀ t, (g b).last ≠ .ja t) → (∀ t f, (g b).last ≠ .cond t f) → (g' b).succs = (g b).succs)) := by
  have fix : ∀ x y, fixSucc x = .ok y → (∀ t, x.last = .ja t → y.succs = [t]) ∧
      (∀ t f, x.last = .cond t f → y.succs = [t, f]) ∧ y.last = x.last ∧ y.preds = x.preds ∧
      y.succs.length = x.succs.length ∧
      ((∀ t, x.last ≠ .ja t) → (∀ t f, x.last ≠ .cond t f) → y.succs = x.succs) := by
    intro x y hxy
    rcases x with ⟨ss, ps, la⟩
    cases la <;> simp only [fixSucc] at hxy
    case none | other => simp at hxy; subst hxy; simp
    case ja t =>
      split at hxy <;> simp at hxy
      subst hxy; simp_all
    case cond t f =>
      split at hxy <;> simp at hxy
      subst hxy; simp_all
  induction all generalizing g with
  | nil => simp [genSucc] at h; subst h; simp
  | cons b bs ih =>
    simp only [genSucc] at h
    obtain ⟨x, h1, h2⟩ := Out.bind_eq_ok.1 h
    obtain ⟨i1, i2, i3⟩ := ih _ h2
    obtain ⟨f1, f2, f3, f4, f5, f6⟩ := fix _ _ h1
    have key : ∀ c, ((fun c => if c = b then x else g c) c).last = (g c).last := by
      intro c; by_cases e : c = b <;> simp [e, f3]
    have keep : ∀ c, ((fun c => if c = b then x else g c) c).succs = (g' c).succs ∨ c ∈ bs := by
      intro c
      by_cases hc : c ∈ bs
      · exact Or.inr hc
      · left
        have : ∀ (all : List Nat) (g g' : Graph), genSucc g all = .ok g' → c ∉ all → (g' c) = g c := by
          intro all
          induction all with
          | nil => intro g g' h _; simp [genSucc] at h; subst h; rfl
          | cons d ds ih' =>
            intro g g' h hn
            simp only [genSucc] at h
            obtain ⟨y, h3, h4⟩ := Out.bind_eq_ok.1 h
            simp at hn
            rw [ih' _ _ h4 hn.2]
            simp [hn.1]
        rw [this bs _ _ h2 hc]
    refine ⟨?_, ?_, ?_⟩
    · intro c hc t ht
      by_cases hcb : c ∈ bs
      · exact i1 c hcb t (by rw [key]; exact ht)
      · rcases List.mem_cons.1 hc with rfl | hc
        · rcases keep c with h | h
          · rw [← h]; simp; exact f1 t ht
          · exact absurd h hcb
        · exact absurd hc hcb
    · intro c hc t f ht
      by_cases hcb : c ∈ bs
      · exact i2 c hcb t f (by rw [key]; exact ht)
      · rcases List.mem_cons.1 hc with rfl | hc
        · rcases keep c with h | h
          · rw [← h]; simp; exact f2 t f ht
          · exact absurd h hcb
        · exact absurd hc hcb
    · intro c
      obtain ⟨j1, j2, j3, j4⟩ := i3 c
      by_cases e : c = b
      · subst e
        simp at j1 j2 j3 j4
        refine ⟨by rw [j1, f3], by rw [j2, f4], by rw [j3, f5], fun q1 q2 => ?_⟩
        rw [j4 (by rw [f3]; exact q1) (by rw [f3]; exact q2)]
        exact f6 q1 q2
      · simp [e] at j1 j2 j3 j4
        exact ⟨j1, j2, j3, j4⟩

/-- A loop: 0 falls into 1; 1 is a conditional jump, not taken to 2, taken to 3; 2 jumps back to 1;
3 returns. -/
def exLoop : Graph := fun b =>
  match b with
  | 0 => ⟨[1], [], .other⟩
  | 1 => ⟨[2, 3], [0, 2], .cond 2 3⟩
  | 2 => ⟨[1], [1], .ja 1⟩
  | 3 => ⟨[], [1], .other⟩
  | _ => ⟨[], [], .none⟩

theorem exLoop_falls (b c : Nat) : Falls exLoop b c ↔ (b = 0 ∧ c = 1) ∨ (b = 1 ∧ c = 2) := by
  rcases b with _ | _ | _ | _ | b <;> simp [Falls, exLoop, Blk.jaTo] <;> omega

/-- The loop meets the hypotheses of C08. -/
theorem exLoop_wf : WF exLoop 0 4 := by
  refine ⟨by omega, ?_, ?_, ?_, ?_, ?_, ?_, ?_, ?_, ⟨id, ?_⟩, ?_⟩
  · intro b hb
    rcases b with _ | _ | _ | _ | b <;> simp [exLoop]
  · intro b hb
    rcases b with _ | _ | _ | _ | b <;> simp [exLoop]
  · intro b hb
    rcases b with _ | _ | _ | _ | b <;> simp [exLoop]
  · intro b t
    rcases b with _ | _ | _ | _ | b <;> simp [exLoop, Blk.jaTo]
  · intro b c hb
    rcases b with _ | _ | _ | _ | b <;> simp [exLoop] <;> intro h <;>
      first | (subst h; simp) | (rcases h with rfl | rfl <;> simp)
  · intro b c hc
    rcases c with _ | _ | _ | _ | c <;> simp [exLoop] <;> intro h <;>
      first | (subst h; simp) | (rcases h with rfl | rfl <;> simp)
  · intro b hb
    rcases b with _ | _ | _ | _ | b <;> simp [exLoop]
  · intro b b' c _ _ h1 h2
    rw [exLoop_falls] at h1 h2; omega
  · intro b c _ h
    rw [exLoop_falls] at h; simp; omega
  · intro b _ h
    rw [exLoop_falls] at h; omega

example : layout exLoop 20 0 = some (.ok [0, 1, 2, 3]) := by decide

/-- C08 is violated on other graphs: when two blocks fall through into the same block (both arms of a
diamond without a jump), that block is listed twice and no error is raised (the check in
`find_chain_head` only looks upwards from queued blocks, core/bpf_ir.c:1628-1671). -/
def exDiamond : Graph := fun b =>
  match b with
  | 0 => ⟨[1, 2], [], .cond 1 2⟩
  | 1 => ⟨[3], [0], .other⟩
  | 2 => ⟨[3], [0], .other⟩
  | 3 => ⟨[], [1, 2], .other⟩
  | _ => ⟨[], [], .none⟩

theorem C08_violated_duplicate : ∀ n, layout exDiamond (n + 20) 0 = some (.ok [0, 1, 3, 2, 3]) := by
  intro n
  rfl

/-- C08 is violated when the entry has a fall-through predecessor: the entry is not first. -/
theorem C08_violated_entry :
    let g : Graph := fun b =>
      match b with
      | 0 => ⟨[], [1], .other⟩
      | 1 => ⟨[0], [], .other⟩
      | _ => ⟨[], [], .none⟩
    ∀ n, layout g (n + 20) 0 = some (.ok [1, 0]) := by
  intro g n
  rfl

/-- C08 is violated on fall-through cycles reached by a jump: `find_chain_head` recurses for ever. -/
theorem C08_violated_cycle :
    let g : Graph := fun b =>
      match b with
      | 0 => ⟨[1], [], .ja 1⟩
      | 1 => ⟨[2], [0, 2], .other⟩
      | 2 => ⟨[1], [1], .other⟩
      | _ => ⟨[], [], .none⟩
    ∀ n, layout g n 0 = none := by
  intro g n
  have hcyc : ∀ n, chainHead g n 1 = none ∧ chainHead g n 2 = none := by
    intro n
    induction n with
    | zero => exact ⟨rfl, rfl⟩
    | succ n ih => exact ⟨ih.2, ih.1⟩
  rcases n with _ | _ | _ | n
  · rfl
  · rfl
  · rfl
  · show reach g (n + 3) [0] [] = none
    have h1 : reach g (n + 3) [0] [] = reach g (n + 2) [1] [0] := rfl
    rw [h1, reach]
    have : ¬ (1 ∈ [0]) := by simp
    simp only [if_neg this, (hcyc _).1]

end Verif.Layout
