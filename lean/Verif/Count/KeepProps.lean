import Verif.Count.KeepBuilt
import Verif.Count.Props
/-!
# C66, C67: below the limit the counting passes change nothing
-/
namespace Verif.Count
open Verif Verif.IR Verif.Edit Verif.Guard
set_option linter.unusedSimpArgs false

theorem total_le {W : World} {f : Fn} {cost : Nat → Nat} : ∀ {i k : Nat}, i ≤ k → ∀ (c : Nat) (r : List Nat) (σ : St),
    total cost (trail W f i c r σ) ≤ total cost (trail W f k c r σ) := by
  intro i
  induction i with
  | zero => intro k _ c r σ; simp [trail, total]
  | succ i ih =>
    intro k hk c r σ
    obtain ⟨k, rfl⟩ : ∃ k', k = k' + 1 := ⟨k - 1, by omega⟩
    simp only [trail]
    split
    · rename_i c1 r1 σ1 _
      have := ih (k := k) (by omega) c1 r1 σ1
      simp only [total, List.map_append, List.sum_append] at this ⊢
      omega
    · exact Nat.le_refl _

theorem run_more {W : World} {f : Fn} : ∀ {n : Nat} {c : Nat} {r : List Nat} {σ : St}, (∀ c1 r1 τ, run W f n c r σ ≠ .running c1 r1 τ) →
    ∀ k, n ≤ k → run W f k c r σ = run W f n c r σ := by
  intro n
  induction n with
  | zero => intro c r σ h; exact absurd rfl (h c r σ)
  | succ n ih =>
    intro c r σ h k hk
    obtain ⟨k, rfl⟩ : ∃ k', k = k' + 1 := ⟨k - 1, by omega⟩
    simp only [run] at h ⊢
    split
    · rename_i hs
      rw [hs] at h
      exact ih h k (by omega)
    · rfl
    · rfl
    · rfl

/-- Either `k` steps of `f` are matched by at least as many of `h`, or the limit is exceeded before, and `h` throws: then `h` has
had the effects `f` has had at some point on the way. -/
def Follows (W : World) (f h : Fn) (lim : Nat) (cost : Nat → Nat) (σ : St) (k : Nat) : Prop :=
  (∃ n, k ≤ n ∧ RelRes (Agree (· < f.next)) (runFn W f k σ) (runFn W h n σ)) ∨
  (∃ i n c r σ1 τ1, i < k ∧ lim < total cost (visited W f i σ) ∧ runFn W f i σ = .running c r σ1 ∧ runFn W h n σ = .thrown τ1 ∧ Agree (· < f.next) σ1 τ1)

theorem follows_of {f f1 g h : Fn} {v : Val} {lim : BitVec 32} {bs : List Nat} {cost : Nat → Nat} (hs : Shape f) (U : Setup f f1)
    (R : Built f1 f.next v lim bs g) (hh : ∃ i, h = { g with insn := i })
    (halloc : h.insn f.next = mkAlloc .t32) (hst : h.insn (f.next + 1) = mkStore f.next (const32 0)) (K : Kept f (relabel f h) lim cost bs (nowAt f h))
    (hl : lim.toNat < 2 ^ 31) {W : World} (hw : 4 ≤ W.wid f.next) (σ : St) (k : Nat) : Follows W f (relabel f h) lim.toNat cost σ k := by
  obtain ⟨r', τ, h1, h2⟩ := start_rel (W := W) hs U R hh halloc hst K σ
  rcases K.sim hw hl k h2 with ⟨n, h3, h4⟩ | ⟨i, n, c1, r1, σ1, τ1, h3, h4, h5, h6, h7⟩
  · exact .inl ⟨n + 2, by omega, by rw [h1]; exact h4⟩
  · refine .inr ⟨i, n + 2, c1, r1, σ1, τ1, h3, ?_, h4, ?_, h6⟩
    · unfold visited
      rw [total_cons]
      omega
    · rw [h1]
      have := h5 0
      rwa [Nat.zero_add] at this

/-- C66 (partial): every execution of `f` is followed by the function with the counters, as long as the blocks it goes through do
not cost more than the limit.  The labels of the phis must be brought up to date, which the pass does not do: see
`C66_violated_labels`. -/
theorem C66_follows_partial {rs : List Nat} {acc : Bool} {lim : BitVec 32} {f g h : Fn} {cost : Nat → Nat} (hi : Input rs f) (hn : NoCount f)
    (hg : insnCounter rs acc lim f = .ok g) (hh : Filled g h) (hc : Costs g h cost) (hl : lim.toNat < 2 ^ 31) (W : World) (hw : 4 ≤ W.wid f.next) (σ : St) (k : Nat) :
    Follows W f (relabel f h) lim.toNat cost σ k := by
  obtain ⟨f1, bs, U, R, hb⟩ := insnCounter_built hi.shape hi.noPhis hi.nodup hi.blocks hi.all hg
  have I := filled_inst hi.shape hi.entry U R hh
  obtain ⟨i, e⟩ := hh.same
  refine follows_of hi.shape U R ⟨i, e⟩ I.alloc I.init (kept_of hi.shape hi.entry U R ⟨i, e⟩ I.shape ?_ ?_) hl hw σ k
  · intro b hb x hx
    have hlt := lt_of_body hi.shape.tidy hb hx
    have hgx : g.insn x = f.insn x := by rw [R.insn x (by rw [U.next]; omega), U.insn x hlt]
    rcases hh.other x with h1 | ⟨c, h1⟩
    · rw [h1, hgx]
    · rw [h1, hgx]
      have hno := hn b hb x hx
      have hfill : ∀ v ∈ operands (f.insn x), fillVal c v = v := by
        intro v hv
        unfold fillVal
        split
        · exact absurd hv (hno _ _ _)
        · rfl
      have e1 : ∀ v ∈ (f.insn x).vals, fillVal c v = v := fun v hv => hfill v (by simp [operands, hv])
      have m1 : (f.insn x).vals.map (fillVal c) = (f.insn x).vals := by
        rw [List.map_congr_left e1]; simp
      have m2 : (if (f.insn x).op = .phi then (f.insn x).phi.map (fun o => (o.1, fillVal c o.2)) else (f.insn x).phi) = (f.insn x).phi := by
        split
        · rename_i hp
          have : ∀ o ∈ (f.insn x).phi, (fun o : Nat × Val => (o.1, fillVal c o.2)) o = id o := fun o ho => by
            have := hfill o.2 (by simp only [operands, hp, if_true, List.mem_append, List.mem_map]; exact .inl (.inr ⟨o, ho, rfl⟩))
            simp [this]
          rw [List.map_congr_left this]; simp
        · rfl
      have m3 : (if raw (f.insn x).op then fillVal c (f.insn x).addr else (f.insn x).addr) = (f.insn x).addr := by
        split
        · rename_i hp
          exact hfill _ (by simp [operands, hp])
        · rfl
      unfold mapOps
      rw [m1, m2, m3]
  · intro b hb hcn
    obtain ⟨t, e', l, ad, s, j, N⟩ := R.sites b hb
    have hcg : Conn g b := conn_same (by rw [e]) (by rw [e]) hcn
    obtain ⟨v', S'⟩ := site_fill hh N.site
    obtain ⟨A, hA'⟩ := N.site.body
    obtain ⟨c, hc1, hc2, hc3⟩ := hh.conn b hcg ad (by rw [hA']; simp) (by rw [N.site.add]; simp [mkBin]) (by rw [N.site.add]; simp [mkBin])
    rw [N.site.add, mapOps_site.2.1] at hc3
    have : v' = .const .plain c .w32 .bbInsnCnt := by
      have h1 := S'.add
      rw [hc3] at h1
      simp [mkBin, fillVal, cntVal] at h1
      exact h1.symm
    subst this
    refine ⟨t, e', l, ad, s, j, _, _, _, _, N, S', hc2, ?_⟩
    exact hc b hcg ad (by rw [hA']; simp) c .w32 (by rw [S'.add]; simp [mkBin])

/-- C66 (partial), the results: below the limit the result is that of `f`. -/
theorem C66_below_partial {rs : List Nat} {acc : Bool} {lim : BitVec 32} {f g h : Fn} {cost : Nat → Nat} (hi : Input rs f) (hn : NoCount f)
    (hg : insnCounter rs acc lim f = .ok g) (hh : Filled g h) (hc : Costs g h cost) (hl : lim.toNat < 2 ^ 31) (W : World) (hw : 4 ≤ W.wid f.next) (σ : St) (k : Nat)
    (hk : total cost (visited W f k σ) ≤ lim.toNat) : ∃ n, k ≤ n ∧ RelRes (Agree (· < f.next)) (runFn W f k σ) (runFn W (relabel f h) n σ) := by
  rcases C66_follows_partial hi hn hg hh hc hl W hw σ k with h1 | ⟨i, n, c, r, σ1, τ1, h1, h2, _⟩
  · exact h1
  · have := total_le (W := W) (f := f) (cost := cost) (Nat.le_of_lt h1) f.entry (f.body f.entry) σ
    unfold visited at hk h2
    rw [total_cons] at hk h2
    omega

/-- From `Follows`: what the new function returns the old one returns, with the same effects. -/
theorem Follows.back {W : World} {f h : Fn} {lim : Nat} {cost : Nat → Nat} {σ : St} (H : ∀ k, Follows W f h lim cost σ k) :
    (∀ n y τ, runFn W h n σ = .done y τ → ∃ k σ1, runFn W f k σ = .done y σ1 ∧ Agree (· < f.next) σ1 τ) ∧
    (∀ n, runFn W h n σ = .stuck → ∃ k, runFn W f k σ = .stuck) ∧
    (∀ n τ, runFn W h n σ = .thrown τ → (∃ k σ1, runFn W f k σ = .thrown σ1 ∧ Agree (· < f.next) σ1 τ) ∨
      ∃ k c r σ1, lim < total cost (visited W f k σ) ∧ runFn W f k σ = .running c r σ1 ∧ Agree (· < f.next) σ1 τ) := by
  have more : ∀ {n k : Nat} {o : Res}, runFn W h n σ = o → (∀ c r τ, o ≠ .running c r τ) → n ≤ k → runFn W h k σ = o := by
    intro n k o h1 h2 h3
    rw [← h1]
    exact run_more (fun c r τ => by show runFn W h n σ ≠ _; rw [h1]; exact h2 c r τ) k h3
  have key : ∀ {n : Nat} {o : Res}, runFn W h n σ = o → (∀ c r τ, o ≠ .running c r τ) →
      RelRes (Agree (· < f.next)) (runFn W f n σ) o ∨ ∃ i c r σ1 τ1, lim < total cost (visited W f i σ) ∧ runFn W f i σ = .running c r σ1 ∧ o = .thrown τ1 ∧ Agree (· < f.next) σ1 τ1 := by
    intro n o h1 h2
    rcases H n with ⟨m, h3, h4⟩ | ⟨i, m, c, r, σ1, τ1, _, h4, h5, h6, h7⟩
    · rw [more h1 h2 h3] at h4; exact .inl h4
    · refine .inr ⟨i, c, r, σ1, τ1, h4, h5, ?_, h7⟩
      have e1 := more h1 h2 (Nat.le_max_left n m)
      have e2 := more h6 (by intro _ _ _ h; cases h) (Nat.le_max_right n m)
      rw [← e1, e2]
  refine ⟨?_, ?_, ?_⟩
  · intro n y τ h1
    rcases key h1 (by intro _ _ _ h; cases h) with h2 | ⟨i, c, r, σ1, τ1, _, _, h4, _⟩
    · generalize e : runFn W f n σ = o at h2
      cases h2 with
      | done _ σ1 _ h3 => exact ⟨n, σ1, e, h3⟩
    · cases h4
  · intro n h1
    rcases key h1 (by intro _ _ _ h; cases h) with h2 | ⟨i, c, r, σ1, τ1, _, _, h4, _⟩
    · generalize e : runFn W f n σ = o at h2
      cases h2 with
      | stuck => exact ⟨n, e⟩
    · cases h4
  · intro n τ h1
    rcases key h1 (by intro _ _ _ h; cases h) with h2 | ⟨i, c, r, σ1, τ1, h3, h4, h5, h6⟩
    · generalize e : runFn W f n σ = o at h2
      cases h2 with
      | thrown σ1 _ h3 => exact .inl ⟨n, σ1, e, h3⟩
    · cases h5
      exact .inr ⟨i, c, r, σ1, h3, h4, h6⟩

/-- C66 (partial), the other direction: the new function returns only what `f` returns, with the effects `f` has; it throws only where
`f` throws or the limit is exceeded, and then it has had the effects `f` has had at some point. -/
theorem C66_back_partial {rs : List Nat} {acc : Bool} {lim : BitVec 32} {f g h : Fn} {cost : Nat → Nat} (hi : Input rs f) (hn : NoCount f)
    (hg : insnCounter rs acc lim f = .ok g) (hh : Filled g h) (hc : Costs g h cost) (hl : lim.toNat < 2 ^ 31) (W : World) (hw : 4 ≤ W.wid f.next) (σ : St) :
    (∀ n y τ, runFn W (relabel f h) n σ = .done y τ → ∃ k σ1, runFn W f k σ = .done y σ1 ∧ Agree (· < f.next) σ1 τ) ∧
    (∀ n, runFn W (relabel f h) n σ = .stuck → ∃ k, runFn W f k σ = .stuck) ∧
    (∀ n τ, runFn W (relabel f h) n σ = .thrown τ → (∃ k σ1, runFn W f k σ = .thrown σ1 ∧ Agree (· < f.next) σ1 τ) ∨
      ∃ k c r σ1, lim.toNat < total cost (visited W f k σ) ∧ runFn W f k σ = .running c r σ1 ∧ Agree (· < f.next) σ1 τ) :=
  Follows.back fun k => C66_follows_partial hi hn hg hh hc hl W hw σ k

/-- Where no phi names a block whose last jump has been moved, there is nothing to bring up to date. -/
theorem C66_labels {f h : Fn} (hp : ∀ x, ∀ o ∈ (h.insn x).phi, nowAt f h o.1 = o.1) : relabel f h = h := by
  have : (fun x => relab (nowAt f h) (h.insn x)) = h.insn := by
    funext x
    unfold relab
    have : (h.insn x).phi.map (fun o => (nowAt f h o.1, o.2)) = (h.insn x).phi := by
      have e : ∀ o ∈ (h.insn x).phi, (fun o : Nat × Val => (nowAt f h o.1, o.2)) o = id o := fun o ho => by
        simp [hp x o ho]
      rw [List.map_congr_left e]; simp
    rw [this]
  unfold relabel
  rw [this]

/-- The lengths the compiler fills in are at most the lengths of the old blocks plus five. -/
theorem C66_costs {rs rs' : List Nat} {acc : Bool} {lim : BitVec 32} {f g : Fn} (hi : Input rs f) (hg : insnCounter rs acc lim f = .ok g)
    (hr : ∀ b, Conn g b → b ∈ rs') : Costs g (replaceBuiltin rs' g) (fun b => (f.body b).length + 5) := by
  obtain ⟨f1, bs, U, R, hb⟩ := insnCounter_built hi.shape hi.noPhis hi.nodup hi.blocks hi.all hg
  intro b hcn x hx c ct hv
  have hbm := Conn.mem R.shape hcn
  have hin : x ∈ rs'.flatMap g.body := List.mem_flatMap.2 ⟨b, hr b hcn, hx⟩
  have hpar := R.shape.tidy.parent b hbm x hx
  have halloc : (g.insn f.next).op = .alloc := by rw [R.insn _ (by rw [U.next]; omega), U.alloc]; rfl
  have hval : c = BitVec.ofNat 64 (insnCnt g b) := by
    simp only [replaceBuiltin] at hv
    rw [if_pos hin, hpar] at hv
    simp only [mapOps, List.mem_map] at hv
    obtain ⟨w, _, hw⟩ := hv
    unfold fillVal at hw
    split at hw
    · cases hw; rfl
    · rename_i hne
      exact absurd hw (hne _ _)
  have hle : insnCnt g b ≤ (f.body b).length + 5 := by
    have hpre : ∀ (A : List Nat) (T : List Nat), g.body b = (if b = f.entry then [f.next, f.next + 1] else []) ++ A ++ T → insnCnt g b ≤ A.length + T.length + 1 := by
      intro A T e
      unfold insnCnt
      rw [e]
      by_cases he : b = f.entry
      · rw [if_pos he]
        rw [List.append_assoc, List.cons_append, List.filter_cons_of_neg (by simp [halloc])]
        exact Nat.le_trans (List.length_filter_le ..) (by simp)
      · rw [if_neg he]
        refine Nat.le_trans (List.length_filter_le ..) ?_
        simp
    by_cases hbf : b ∈ f1.allBbs
    · by_cases hbb : b ∈ bs
      · obtain ⟨t, e, l, ad, s, j, N⟩ := R.sites b hbb
        obtain ⟨A, B, h1, h2, _⟩ := R.spot hi.shape U N
        have := hpre A _ h2
        rw [h1]
        simp at this ⊢
        omega
      · have := hpre (f.body b) [] (by
          rw [R.body b hbf hbb]
          by_cases he : b = f.entry
          · rw [if_pos he, he, U.bodyE]; simp
          · rw [if_neg he, U.body b he]; simp)
        simp at this
        omega
    · obtain ⟨b', hb', _, t, e, l, ad, s, j, N, h1⟩ := R.new b hbm hbf
      have hone : ∃ y, g.body b = [y] := by
        rcases h1 with rfl | rfl
        · obtain ⟨A, B, _, _, _, h4⟩ := R.spot hi.shape U N
          rcases h4 with ⟨_, h5⟩ | ⟨y, _, _, _, _, h5, _⟩
          · have hb1 : b' ∈ f.allBbs := by rw [← U.allBbs]; exact N.inF
            exact absurd ((hi.shape.graph.succs b' hb1).2 b (by rw [h5]; simp)) (by rw [← U.allBbs]; exact hbf)
          · exact ⟨y, h5⟩
        · obtain ⟨th, h2, _⟩ := N.site.err
          exact ⟨th, h2⟩
      obtain ⟨y, hy⟩ := hone
      unfold insnCnt
      refine Nat.le_trans (List.length_filter_le ..) ?_
      rw [hy]
      simp
  rw [hval, BitVec.toNat_ofNat]
  exact Nat.le_trans (Nat.mod_le _ _) hle

/-! ## C67 -/

/-- C67 (partial): the same for the jump counter, which counts the jumps; the limit is 100.  If there are no jumps, nothing is changed. -/
theorem C67_follows_partial {rs : List Nat} {f g : Fn} (hi : Input rs f) (hg : jmpComplexity rs f = .ok g) :
    (jumps rs f = [] ∧ g = f) ∨ ∀ (W : World), 4 ≤ W.wid f.next → ∀ (σ : St) (k : Nat), Follows W f (relabel f g) 100 (jumpsIn f) σ k := by
  by_cases hne : jumps rs f = []
  · refine .inl ⟨hne, ?_⟩
    unfold jmpComplexity at hg
    rw [hne] at hg
    cases hg; rfl
  · obtain ⟨f1, bs, U, R, hb, hb'⟩ := jmp_built hi.shape hi.noPhis hi.nodup hi.blocks hne hg
    have I := plain_inst (k := .plain) (ct := .w32) (bi := .none) (c := 1) (by decide) hi.shape hi.entry U R
    refine .inr fun W hw σ k => ?_
    refine follows_of (lim := 100) hi.shape U R ⟨g.insn, rfl⟩ I.alloc I.init (kept_of hi.shape hi.entry U R ⟨g.insn, rfl⟩ R.shape ?_ ?_) (by decide) hw σ k
    · intro b hb x hx
      have hlt := lt_of_body hi.shape.tidy hb hx
      rw [R.insn x (by rw [U.next]; omega), U.insn x hlt]
    · intro b hb hcn
      obtain ⟨t, e', l, ad, s, j, N⟩ := R.sites b hb
      obtain ⟨x, hx, hj⟩ := hb' b hb
      refine ⟨t, e', l, ad, s, j, _, _, _, _, N, N.site, by decide, ?_⟩
      unfold jumpsIn
      have : x ∈ (f.body b).filter fun x => ends (f.insn x).op := List.mem_filter.2 ⟨hx, by rw [← ends_of_isJmp]; exact hj⟩
      have := List.length_pos_of_mem this
      have e1 : (BitVec.signExtend 64 (1 : BitVec 32)).toNat = 1 := by decide
      rw [e1]
      omega

/-! ## Examples -/

theorem loopFn_noCount : NoCount loopFn := by
  have : ∀ b ∈ loopFn.allBbs, ∀ x ∈ loopFn.body b, ∀ v ∈ operands (loopFn.insn x), (match v with | .const _ _ _ .bbInsnCnt => false | _ => true) = true := by decide +kernel
  intro b hb x hx k c ct hm
  have := this b hb x hx _ hm
  simp at this

/-- `loopFn`, two rounds, with a limit of 50: the hypotheses of `C66_below_partial` hold for all 6 steps of the execution. -/
example : ∀ acc, ∃ g, insnCounter [0, 1, 2] acc 50 loopFn = .ok g ∧ NoCount loopFn ∧ Filled g (replaceBuiltin g.allBbs g) ∧
    Costs g (replaceBuiltin g.allBbs g) (fun b => (loopFn.body b).length + 5) ∧
    total (fun b => (loopFn.body b).length + 5) (visited Lift.exWI loopFn 6 (goSt 1 3)) ≤ (50 : BitVec 32).toNat ∧ 4 ≤ Lift.exWI.wid loopFn.next := by
  intro acc
  have hs : Shape (getOk (insnCounter [0, 1, 2] acc 50 loopFn)) := shape_of_check (by cases acc <;> decide +kernel)
  refine ⟨getOk (insnCounter [0, 1, 2] acc 50 loopFn), by cases acc <;> rfl, loopFn_noCount, C29_filled hs (fun b hb => Conn.mem hs hb) ?_, ?_, ?_, ?_⟩
  · cases acc <;> decide +kernel
  · exact C66_costs (acc := acc) (lim := 50) loopFn_input (by cases acc <;> rfl) (fun b hb => Conn.mem hs hb)
  · decide +kernel
  · decide +kernel

/-! ## Violations -/

/-- `b0: ja b1`, `b1: p = phi (b0: r1) (b1: x); x = p + 1; if x == r2 goto b2 else b1`, `b2: ret x` -/
def phiLoopFn : Fn :=
  let f := newBb (newBb emptyFn)
  let f := createBb f (mkJa 1) 0 .back
  let f := connect f 0 1
  let f := createBb f mkPhi 1 .back
  let f := createBb f (mkBin .add .w64 (.insn 7) (const32 1)) 1 .back
  let f := phiAddOperand (phiAddOperand f 7 0 (.insn 1)) 7 1 (.insn 8)
  let f := createBb f (mkJbin .jeq .w64 (.insn 8) (.insn 2) 1 2) 1 .back
  let f := connect (connect f 1 1) 1 2
  createBb f (mkRet (.insn 8)) 2 .back

theorem phiLoopFn_input : Input [0, 1, 2] phiLoopFn := by
  have hs : Shape phiLoopFn := shape_of_check (by decide +kernel)
  exact ⟨hs, by decide, by decide +kernel, fun b hb => Conn.mem hs hb, by decide +kernel, by decide +kernel⟩

/-- Is the run stuck? -/
def isStuck (f : Fn) (k : Nat) (a b : BitVec 64) : Bool := match runFn Lift.exWI f k (goSt a b) with | .stuck => true | _ => false

/-- C66 and C67 are violated where a phi names a block whose last jump is moved: the phi has no operand for the block control comes from
now.  With the labels brought up to date the result is the old one. -/
theorem C66_violated_labels : Input [0, 1, 2] phiLoopFn ∧ ending phiLoopFn 20 1 4 = (some (some 4), 4) ∧
    (∀ acc, onOk (insnCounter [0, 1, 2] acc 50 phiLoopFn) (fun g =>
      isStuck (replaceBuiltin g.allBbs g) 40 1 4 && ending (relabel phiLoopFn (replaceBuiltin g.allBbs g)) 60 1 4 == (some (some 4), if acc then 8 else 7)) = true) ∧
    onOk (jmpComplexity [0, 1, 2] phiLoopFn) (fun g => isStuck g 40 1 4 && ending (relabel phiLoopFn g) 60 1 4 == (some (some 4), 9)) = true := by
  refine ⟨phiLoopFn_input, by decide +kernel, ?_, by decide +kernel⟩
  intro acc
  cases acc <;> decide +kernel

end Verif.Count
