import Verif.Throw.Lemmas
import Verif.Guard.ShapeCheck
import Verif.Count.Props
/-!
# C31, C32: the throw translation

`translateDf` is `translate_throw_df`, the pass that releases reservations; `translateThrow` is the pass the compiler
runs.  `path W f j f.entry (f.body f.entry) σ` are the instructions executed in the first `j` steps.
-/
namespace Verif.Throw
open Verif Verif.IR Verif.Edit Verif.Guard Verif.Count

variable {rs : List Nat} {f g : Fn} {msg : Bool}

/-- What happens in `g` when the execution of `f` is in front of a throw in the state `τ` after `j` steps: the reservations
`L` are discarded, once each, the message is printed if wanted, and zero is returned. -/
def Leaves (W : World) (g : Fn) (j : Nat) (σ τ : St) (msg : Bool) (L : List Nat) : Prop :=
  L.Nodup ∧ ∃ m τ' p, (∀ k, runFn W g (j + m + k) σ = .done 0 τ') ∧
    τ'.trace = τ.trace ++ L.map (fun q => ⟨0x85, [τ.env q, 0]⟩) ++ if msg then [⟨6, [p, 5]⟩] else []

/-! ## C31 -/

/-- C31: the pass ends, and succeeds unless something other than a reservation is released. -/
theorem C31_succeeds (hi : Input rs f) (msg : Bool) :
    (∃ g, translateDf msg rs f = .ok g) ↔
      ∀ b ∈ rs, ∀ x ∈ f.body b, isRelease (f.insn x) = true → ∃ q, releases (f.insn x) q = true ∧ isReserve (f.insn q) = true := by
  have hiff : (∀ b ∈ rs, supported f b = true) ↔ ∀ b ∈ rs, ∀ x ∈ f.body b, isRelease (f.insn x) = true → ∃ q, releases (f.insn x) q = true ∧ isReserve (f.insn q) = true := by
    simp only [supported, List.all_eq_true, Bool.or_eq_true, Bool.not_eq_true', releases, Bool.and_eq_true, decide_eq_true_eq]
    constructor
    · intro h b hb x hx hr
      have := (h b hb x hx).resolve_left (by simp [hr])
      cases hv : (f.insn x).vals.head? with
      | none => rw [hv] at this; cases this
      | some v =>
        rw [hv] at this
        cases v with
        | insn q => exact ⟨q, ⟨hr, rfl⟩, this⟩
        | const => cases this
        | undef => cases this
    · intro h b hb x hx
      cases hr : isRelease (f.insn x) with
      | false => exact .inl rfl
      | true =>
        obtain ⟨q, ⟨_, h1⟩, h2⟩ := h b hb x hx hr
        right
        rw [h1]; exact h2
  rw [← hiff]
  constructor
  · rintro ⟨g, hg⟩; exact df_inv hg
  · intro h
    obtain ⟨_, g, _, hg, _⟩ := df_spec (msg := msg) hi h
    exact ⟨g, hg⟩

/-- C31 (partial): when an execution comes to a throw in block `b`, the function returns after discarding, once each,
exactly the reservations that are held at the end of `b` for a reason that holds on every way to `b` and does not go
through a loop.  All of them are held in this execution.  Missing: reservations held on this way only
(`C31_violated_join`) or through a loop (`C31_violated_loop`). -/
theorem C31_discards_partial (hi : Input rs f) (h : translateDf msg rs f = .ok g) {W : World} {j : Nat} {σ τ : St} {b x : Nat} {r : List Nat}
    (hr : runFn W f j σ = .running b (x :: r) τ) (ho : (f.insn x).op = .throw) :
    ∃ L, Leaves W g j σ τ msg L ∧ (∀ q, q ∈ L ↔ Kept f q b) ∧
      ∀ q ∈ L, Reserves f q ∧ held f q (path W f j f.entry (f.body f.entry) σ) = true := by
  obtain ⟨s, g', hs, hg, D⟩ := df_spec (msg := msg) hi (df_inv h)
  rw [h] at hg
  cases hg
  obtain ⟨N, S, hN⟩ := done_swapped hi D
  obtain ⟨hb, rfl, hx, hp, w, hw, hh⟩ := at_throw hi hr ho
  have hk : ∀ q, q ∈ s.out b ↔ Kept f q b := fun q => out_kept hi hs hb
  have hres : ∀ q ∈ s.out b, Reserves f q := fun q hq => Kept.inBody hi ((hk q).1 hq) hb
  refine ⟨s.out b, ⟨(solve_inv hs).nodupO b, ?_⟩, hk, fun q hq => ⟨hres q hq, ?_⟩⟩
  · have hlock := S.lock (W := W) hi.shape (j + 1) (σ := σ) .entry (S.body (Conn.mem hi.shape .entry))
    have hrf : run W f (j + 1) f.entry (f.body f.entry) σ = .thrown τ := by
      rw [run_add j hr 1]
      simp only [run, IR.step, ho]; rfl
    rw [hrf] at hlock
    obtain ⟨j', x', hj, hx', h1, h2⟩ := hlock
    -- the position is the one we know
    have hjj : j' = j := by
      rcases Nat.lt_or_ge j' j with hlt | hge
      · have hst : IR.step W f (f.parent x') [x'] τ = .thrown := by
          simp only [IR.step, (throw_at hi hx').2.1]; rfl
        have h3 := run_add j' h1 (j - j')
        rw [show j' + (j - j') = j by omega, show run W f j f.entry (f.body f.entry) σ = _ from hr] at h3
        obtain ⟨d, hd⟩ : ∃ d, j - j' = d + 1 := ⟨j - j' - 1, by omega⟩
        rw [hd] at h3
        simp only [run, hst] at h3
        cases h3
      · omega
    subst hjj
    rw [show run W f j' f.entry (f.body f.entry) σ = _ from hr] at h1
    simp only [Res.running.injEq, List.cons.injEq] at h1
    have e1 : x' = x := h1.2.1.1.symm
    subst e1
    rw [hp] at h2
    obtain ⟨hn, E⟩ := hN x' hx
    rw [hp] at E
    obtain ⟨m, τ', h3, p, h4⟩ := run_exit (W := W) (b := b) (x := x') (n := f.next) E hn (fun q hq => by
      obtain ⟨⟨c, hc, hqc⟩, _⟩ := hres q hq
      exact lt_of_body hi.shape.tidy hc hqc) (S.ret x' hx).1 (S.ret x' hx).2 τ
    refine ⟨m, τ', p, fun k => ?_, h4⟩
    unfold runFn
    rw [S.entry, Nat.add_assoc, run_add j' h2 (m + k)]
    exact h3 k
  · rw [hh q (hres q hq).2]
    exact Kept.held hi.shape hi.entry ((hk q).1 hq) hw

/-- Whether `q` is held at the end of block `b` does not depend on the way. -/
def WayFree (f : Fn) (q b : Nat) : Prop := ∀ w w', Ways f (b :: w) → Ways f (b :: w') → heldWay f q (b :: w) = heldWay f q (b :: w')

/-- C31 (partial): in a function without loops, when an execution comes to a throw in block `b`, the reservations held at that
moment are discarded, once each, and no others, provided the held ones do not depend on the way to `b`. -/
theorem C31_all_partial (hi : Input rs f) (h : translateDf msg rs f = .ok g) (hm : MadeFirst f) {rank : Nat → Nat} (hrk : ∀ b ∈ f.allBbs, ∀ p ∈ f.preds b, rank p < rank b)
    {W : World} {j : Nat} {σ τ : St} {b x : Nat} {r : List Nat} (hr : runFn W f j σ = .running b (x :: r) τ) (ho : (f.insn x).op = .throw)
    (hf : ∀ q, Reserves f q → WayFree f q b) :
    ∃ L, Leaves W g j σ τ msg L ∧ ∀ q, q ∈ L ↔ Reserves f q ∧ held f q (path W f j f.entry (f.body f.entry) σ) = true := by
  obtain ⟨L, h1, h2, h3⟩ := C31_discards_partial hi h hr ho
  obtain ⟨hb, _, hx, hp, w, hw, hh⟩ := at_throw hi hr ho
  refine ⟨L, h1, fun q => ⟨h3 q, fun ⟨hq, hq2⟩ => (h2 q).2 ?_⟩⟩
  rw [hh q hq.2] at hq2
  exact kept_of_held hi.shape hi.entry hm hrk (fun b hb p hp => (hi.conn p).1 (hi.preds b ((hi.conn b).2 hb) p hp)) hq.2 (rank b) (Nat.le_refl _) ((hi.conn b).1 hb)
    fun w' hw' => by rw [hf q hq w' w hw' hw]; exact hq2

/-! ## C32 -/

/-- C32: after the translation no connected block contains a throw. -/
theorem C32_no_throws (hi : Input rs f) (h : translateDf msg rs f = .ok g) : ∀ b ∈ rs, ∀ x ∈ g.body b, (g.insn x).op ≠ .throw := by
  obtain ⟨s, g', hs, hg, D⟩ := df_spec (msg := msg) hi (df_inv h)
  rw [h] at hg
  cases hg
  obtain ⟨N, S, hN⟩ := done_swapped hi D
  intro b hb x hx ho
  have hbm := hi.blocks hb
  have old : ∀ y, y ∈ f.body b → (g.insn y).op ≠ .throw := by
    intro y hy ho
    by_cases hyT : y ∈ throws rs f
    · rw [(S.ret y hyT).1] at ho; cases ho
    · rw [S.insn y ⟨b, hbm, hy⟩ hyT] at ho
      exact hyT (S.all b ((hi.conn b).1 hb) y hy ho)
  by_cases hsite : ∃ y ∈ throws rs f, f.parent y = b
  · obtain ⟨y, hy, rfl⟩ := hsite
    obtain ⟨_, _, A, hA, hg⟩ := S.site y hy
    rw [hg] at hx
    rcases List.mem_append.1 hx with hx | hx
    · rcases List.mem_append.1 hx with hx | hx
      · exact old x (by rw [hA]; simp [hx]) ho
      · obtain ⟨D', M, hNy, h1, h2⟩ := (hN y hy).2
        rw [hNy] at hx
        rcases List.mem_append.1 hx with hx | hx
        · have : g.insn x ∈ (s.out (f.parent y)).map discard := by rw [← h1]; exact List.mem_map_of_mem hx
          obtain ⟨q, _, hq⟩ := List.mem_map.1 this
          rw [← hq] at ho; cases ho
        · cases msg with
          | false => rw [show M = [] by simpa using h2] at hx; cases hx
          | true =>
            simp only [if_true] at h2
            obtain ⟨a, s1, s2, e, c, rfl, m⟩ := h2
            simp only [List.mem_cons, List.not_mem_nil, or_false] at hx
            rcases hx with rfl | rfl | rfl | rfl | rfl
            · rw [m.alloc] at ho; cases ho
            · rw [m.st1] at ho; cases ho
            · rw [m.st2] at ho; cases ho
            · rw [m.elem] at ho; cases ho
            · rw [m.call] at ho; cases ho
    · exact old x (by rw [hA]; simpa using Or.inr (by simpa using hx)) ho
  · rw [S.other b hbm fun y hy e => hsite ⟨y, hy, e⟩] at hx
    exact old x hx ho

/-- C32: an execution that throws returns zero, all other executions stay as they are. -/
theorem C32_returns_zero (hi : Input rs f) (h : translateDf msg rs f = .ok g) (W : World) (σ : St) (k : Nat) :
    match runFn W f k σ with
    | .thrown _ => ∃ m τ', runFn W g m σ = .done 0 τ'
    | .done v τ => runFn W g k σ = .done v τ
    | .stuck => runFn W g k σ = .stuck
    | .running b _ τ => ∃ r, runFn W g k σ = .running b r τ := by
  obtain ⟨s, g', hs, hg, D⟩ := df_spec (msg := msg) hi (df_inv h)
  rw [h] at hg
  cases hg
  obtain ⟨N, S, hN⟩ := done_swapped hi D
  have hlock := S.lock (W := W) hi.shape k (σ := σ) .entry (S.body (Conn.mem hi.shape .entry))
  unfold runFn
  rw [S.entry]
  revert hlock
  cases hrun : run W f k f.entry (f.body f.entry) σ with
  | done v τ => exact id
  | stuck => exact id
  | running b r τ => rintro ⟨r', h1, _⟩; exact ⟨r', h1⟩
  | thrown τ =>
    rintro ⟨j, x, hj, hx, h1, h2⟩
    obtain ⟨L, ⟨_, m, τ', p, h3, _⟩, _⟩ := C31_discards_partial (W := W) hi h (show runFn W f j σ = _ from h1) (throw_at hi hx).2.1
    exact ⟨j + m + 0, τ', by have := h3 0; unfold runFn at this; rwa [S.entry] at this⟩

/-! ### The pass of the compiler -/

/-- C32: the pass the compiler runs leaves no throw in the connected blocks. -/
theorem C32_pipeline_no_throws (rs : List Nat) (f : Fn) : ∀ b ∈ rs, ∀ x ∈ (translateThrow rs f).body b, ((translateThrow rs f).insn x).op ≠ .throw := by
  intro b hb x hx
  simp only [translateThrow] at hx ⊢
  split
  · intro h; cases h
  · rename_i h
    exact fun ho => h ⟨List.mem_flatMap.2 ⟨b, hb, hx⟩, ho⟩

/-- C32 (partial): with the pass the compiler runs, an execution that throws returns one (not zero, see `C32_violated`) at
once, all other executions stay as they are. -/
theorem C32_pipeline_partial (hs : Shape f) (hR : ∀ b ∈ rs, b ∈ f.allBbs) (hC : ∀ b, Conn f b → b ∈ rs) (W : World) (σ : St) (k : Nat) :
    match runFn W f k σ with
    | .thrown τ => runFn W (translateThrow rs f) k σ = .done 1 τ
    | .done v τ => runFn W (translateThrow rs f) k σ = .done v τ
    | .stuck => runFn W (translateThrow rs f) k σ = .stuck
    | .running b _ τ => ∃ r, runFn W (translateThrow rs f) k σ = .running b r τ := by
  have S := simple_swapped hs hR hC
  have hlock := S.lock (W := W) hs k (σ := σ) .entry (S.body (Conn.mem hs .entry))
  unfold runFn
  rw [S.entry]
  revert hlock
  cases hrun : run W f k f.entry (f.body f.entry) σ with
  | done v τ => exact id
  | stuck => exact id
  | running b r τ => rintro ⟨r', h1, _⟩; exact ⟨r', h1⟩
  | thrown τ =>
    rintro ⟨j, x, hj, hx, h1, h2⟩
    have := run_add j h2 (k - j)
    rw [show j + (k - j) = k by omega] at this
    obtain ⟨d, hd⟩ : ∃ d, k - j = d + 1 := ⟨k - j - 1, by omega⟩
    dsimp only
    rw [this, hd, List.nil_append, run_ret (S.ret x hx).1 (S.ret x hx).2]
    rfl

/-! ## Examples -/

def sortedB (f : Fn) : List Nat → List Nat → Bool
  | _, [] => true
  | d, b :: B => (match f.preds b with | [p] => decide (p ∈ d) | _ => true) && sortedB f (d ++ [b]) B

theorem sorted_of_check {f : Fn} : ∀ (B d : List Nat), sortedB f d B = true → ∀ A b C p, B = A ++ b :: C → f.preds b = [p] → p ∈ d ++ A := by
  intro B
  induction B with
  | nil => intro d _ A b C p h _; simp at h
  | cons x B ih =>
    intro d h A b C p hB hp
    simp only [sortedB, Bool.and_eq_true] at h
    cases A with
    | nil =>
      simp only [List.nil_append, List.cons.injEq] at hB
      have h1 := h.1
      rw [hB.1, hp] at h1
      simpa using h1
    | cons a A =>
      simp only [List.cons_append, List.cons.injEq] at hB
      have := ih _ h.2 A b C p hB.2 hp
      rw [hB.1] at this
      simpa using this

/-- `b0: q = reserve(); if r1 == r2 goto b2 else b1`, `b1: submit(q); ret 7`, `b2: throw` -/
def holdFn : Fn :=
  let f := newBb (newBb emptyFn)
  let f := createBb f { mkCall 0x83 with vals := [.insn 1] } 0 .back
  let f := createBb f (mkJbin .jeq .w64 (.insn 1) (.insn 2) 1 2) 0 .back
  let f := connect (connect f 0 1) 0 2
  let f := createBb f { mkCall 0x84 with vals := [.insn 6, const32 0] } 1 .back
  let f := createBb f (mkRet (const32 7)) 1 .back
  createBb f mkThrow 2 .back

theorem holdFn_input : Input [0, 1, 2] holdFn := by
  have hs : Shape holdFn := shape_of_check (by decide +kernel)
  have c0 : Conn holdFn 0 := .entry
  refine ⟨hs, by decide +kernel, by decide, fun b => ⟨fun hb => ?_, fun hb => Conn.mem hs hb⟩, by decide +kernel, fun A b B p h1 h2 => by simpa using sorted_of_check [0, 1, 2] [] (by decide +kernel) A b B p h1 h2⟩
  simp only [List.mem_cons, List.not_mem_nil, or_false] at hb
  rcases hb with rfl | rfl | rfl
  · exact c0
  · exact .step c0 (by decide +kernel)
  · exact .step c0 (by decide +kernel)

/-- The value returned after `k` steps and the calls made. -/
def outcome (f : Fn) (k : Nat) (a b : BitVec 64) : Option (BitVec 64 × List (BitVec 32)) :=
  match runFn Lift.exWI f k (goSt a b) with
  | .done x τ => some (x, τ.trace.map (·.fid))
  | _ => none

/-- Is the execution in front of a throw after `j` steps, and holds `q`? -/
def heldAt (f : Fn) (j q : Nat) (a b : BitVec 64) : Bool :=
  match runFn Lift.exWI f j (goSt a b) with
  | .running _ [x] _ => decide ((f.insn x).op = .throw) && isReserve (f.insn q) && held f q (path Lift.exWI f j f.entry (f.body f.entry) (goSt a b))
  | _ => false

/-- `holdFn` with and without message: the reservation is discarded if the function throws, and submitted otherwise. -/
example : (∀ b ∈ [0, 1, 2], supported holdFn b = true) ∧ heldAt holdFn 2 6 4 4 = true ∧
    onOk (translateDf false [0, 1, 2] holdFn) (fun g => outcome g 10 4 4 == some (0, [0x83, 0x85]) && outcome g 10 4 5 == some (7, [0x83, 0x84])) = true ∧
    onOk (translateDf true [0, 1, 2] holdFn) (fun g => outcome g 20 4 4 == some (0, [0x83, 0x85, 6]) && outcome g 20 4 5 == some (7, [0x83, 0x84])) = true := by
  decide +kernel

/-- The hypotheses of `C31_all_partial` hold for `holdFn`. -/
example : MadeFirst holdFn ∧ (∀ b ∈ holdFn.allBbs, ∀ p ∈ holdFn.preds b, p < b) ∧ ∀ q, Reserves holdFn q → WayFree holdFn q 2 := by
  have hs : Shape holdFn := shape_of_check (by decide +kernel)
  refine ⟨?_, by decide +kernel, ?_⟩
  · intro b hb A q B h x hx
    have hb' : b ∈ [0, 1, 2] := hb
    have hxb : x ∈ holdFn.body b := by rw [h]; simp [hx]
    have hqb : q ∈ holdFn.body b := by rw [h]; simp
    have : ∀ b ∈ [0, 1, 2], ∀ x ∈ holdFn.body b, ∀ q ∈ holdFn.body b, releases (holdFn.insn x) q = false := by decide +kernel
    exact this b hb' x hxb q hqb
  · intro q _ w w' hw hw'
    have only : ∀ {w}, Ways holdFn (2 :: w) → w = [0] := by
      intro w hw
      cases hw with
      | @step a _ v hv hb =>
        have ha : a = 0 := by
          have hm := Conn.mem hs (hv.conn a (List.mem_cons_self ..))
          have : ∀ a ∈ holdFn.allBbs, 2 ∈ holdFn.succs a → a = 0 := by decide +kernel
          exact this a hm hb
        subst ha
        cases hv with
        | entry => rfl
        | @step c _ u hu h0 =>
          have hm := Conn.mem hs (hu.conn c (List.mem_cons_self ..))
          have : ∀ a ∈ holdFn.allBbs, 0 ∉ holdFn.succs a := by decide +kernel
          exact absurd h0 (this c hm)
    rw [only hw, only hw']

/-! ## Violations -/

/-- `b0: if r1 == r2 goto b2 else b1`, `b1: q = reserve(); goto b3`, `b2: goto b3`, `b3: throw` -/
def joinFn : Fn :=
  let f := newBb (newBb (newBb emptyFn))
  let f := createBb f (mkJbin .jeq .w64 (.insn 1) (.insn 2) 1 2) 0 .back
  let f := connect (connect f 0 1) 0 2
  let f := createBb f { mkCall 0x83 with vals := [.insn 1] } 1 .back
  let f := createBb f (mkJa 3) 1 .back
  let f := createBb f (mkJa 3) 2 .back
  let f := connect (connect f 1 3) 2 3
  createBb f mkThrow 3 .back

/-- `b0: q = reserve(); goto b1`, `b1: if r1 == r2 goto b3 else b2`, `b2: goto b1`, `b3: throw` -/
def loopFn : Fn :=
  let f := newBb (newBb (newBb emptyFn))
  let f := createBb f { mkCall 0x83 with vals := [.insn 1] } 0 .back
  let f := createBb f (mkJa 1) 0 .back
  let f := createBb f (mkJbin .jeq .w64 (.insn 1) (.insn 2) 2 3) 1 .back
  let f := createBb f (mkJa 1) 2 .back
  let f := connect (connect (connect (connect f 0 1) 1 2) 1 3) 2 1
  createBb f mkThrow 3 .back

/-- `b0: if r1 == r2 goto b2 else b1`, `b1: q = reserve(); goto b3`, `b2: throw`, `b3: goto b0` -/
def entryFn : Fn :=
  let f := newBb (newBb (newBb emptyFn))
  let f := createBb f (mkJbin .jeq .w64 (.insn 1) (.insn 2) 1 2) 0 .back
  let f := createBb f { mkCall 0x83 with vals := [.insn 1] } 1 .back
  let f := createBb f (mkJa 3) 1 .back
  let f := createBb f (mkJa 0) 3 .back
  let f := connect (connect (connect (connect f 0 1) 0 2) 1 3) 3 0
  createBb f mkThrow 2 .back

theorem joinFn_input : Input [0, 1, 2, 3] joinFn := by
  have hs : Shape joinFn := shape_of_check (by decide +kernel)
  have c0 : Conn joinFn 0 := .entry
  have c1 : Conn joinFn 1 := .step c0 (by decide +kernel)
  refine ⟨hs, by decide +kernel, by decide, fun b => ⟨fun hb => ?_, fun hb => Conn.mem hs hb⟩, by decide +kernel, fun A b B p h1 h2 => by simpa using sorted_of_check [0, 1, 2, 3] [] (by decide +kernel) A b B p h1 h2⟩
  simp only [List.mem_cons, List.not_mem_nil, or_false] at hb
  rcases hb with rfl | rfl | rfl | rfl
  · exact c0
  · exact c1
  · exact .step c0 (by decide +kernel)
  · exact .step c1 (by decide +kernel)

theorem loopFn_input : Input [0, 1, 2, 3] loopFn := by
  have hs : Shape loopFn := shape_of_check (by decide +kernel)
  have c0 : Conn loopFn 0 := .entry
  have c1 : Conn loopFn 1 := .step c0 (by decide +kernel)
  refine ⟨hs, by decide +kernel, by decide, fun b => ⟨fun hb => ?_, fun hb => Conn.mem hs hb⟩, by decide +kernel, fun A b B p h1 h2 => by simpa using sorted_of_check [0, 1, 2, 3] [] (by decide +kernel) A b B p h1 h2⟩
  simp only [List.mem_cons, List.not_mem_nil, or_false] at hb
  rcases hb with rfl | rfl | rfl | rfl
  · exact c0
  · exact c1
  · exact .step c1 (by decide +kernel)
  · exact .step c1 (by decide +kernel)

/-- C31 is violated where ways meet: a reservation held on one of them only is not discarded. -/
theorem C31_violated_join : Input [0, 1, 2, 3] joinFn ∧ heldAt joinFn 3 7 4 5 = true ∧
    onOk (translateDf false [0, 1, 2, 3] joinFn) (fun g => outcome g 10 4 5 == some (0, [0x83])) = true :=
  ⟨joinFn_input, by decide +kernel, by decide +kernel⟩

/-- C31 is violated in loops: a reservation held on all ways through a loop is not discarded. -/
theorem C31_violated_loop : Input [0, 1, 2, 3] loopFn ∧ heldAt loopFn 3 6 4 4 = true ∧
    onOk (translateDf false [0, 1, 2, 3] loopFn) (fun g => outcome g 10 4 4 == some (0, [0x83])) = true :=
  ⟨loopFn_input, by decide +kernel, by decide +kernel⟩

/-- C31 is violated when a jump leads to the entry: a reservation that has not been made is discarded. -/
theorem C31_violated_entry : Shape entryFn ∧
    onOk (translateDf false [0, 1, 2, 3] entryFn) (fun g => outcome g 10 4 4 == some (0, [0x85])) = true :=
  ⟨shape_of_check (by decide +kernel), by decide +kernel⟩

/-- C31 is violated by the compiler: the pass it runs discards nothing. -/
theorem C31_violated : Input [0, 1, 2] holdFn ∧ heldAt holdFn 2 6 4 4 = true ∧ outcome (translateThrow [0, 1, 2] holdFn) 10 4 4 = some (1, [0x83]) :=
  ⟨holdFn_input, by decide +kernel, by decide +kernel⟩

/-- C32 is violated by the compiler: with the pass it runs a throw returns one. -/
theorem C32_violated : Input [0, 1, 2] holdFn ∧ heldAt holdFn 2 6 4 4 = true ∧ (outcome (translateThrow [0, 1, 2] holdFn) 10 4 4).map (·.1) = some 1 :=
  ⟨holdFn_input, by decide +kernel, by decide +kernel⟩

end Verif.Throw
