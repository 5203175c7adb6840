import Verif.Count.Jumps
import Verif.Guard.ShapeCheck
import Verif.Edit.Props
/-!
# C29, C30: the counting passes
-/
namespace Verif.Count
open Verif Verif.IR Verif.Edit Verif.Guard
set_option linter.unusedSimpArgs false

/-- What the passes expect of a function: it is in good shape, the reachable blocks are listed once, and no jump leads back
to the entry. -/
structure Input (rs : List Nat) (f : Fn) : Prop where
  shape : Shape f
  nodup : rs.Nodup
  blocks : ∀ b ∈ rs, b ∈ f.allBbs
  all : ∀ b, Conn f b → b ∈ rs
  entry : f.preds f.entry = []
  noPhis : phisOf f f.entry = []

/-! ## C29 -/

/-- C29 (partial), first half: after the pass every cycle that can be reached contains a block with a counter.  The
full claim is false when the entry is in a cycle, see `C29_violated_entry`. -/
theorem C29_cycles_partial {rs : List Nat} {acc : Bool} {lim : BitVec 32} {f g : Fn} (hi : Input rs f) (h : insnCounter rs acc lim f = .ok g)
    (C : List Nat) (hC : Cyclic g C) (hr : ∀ c ∈ C, Conn g c) : ∃ c ∈ C, Counts g f.next lim c := by
  obtain ⟨f1, bs, U, R, hb⟩ := insnCounter_built hi.shape hi.noPhis hi.nodup hi.blocks hi.all h
  obtain ⟨c, hc, h1⟩ := R.cycle U.shape (preds_entry hi.shape hi.entry U R) hb hC hr
  obtain ⟨t, e, l, ad, s, j, N⟩ := R.sites c h1
  exact ⟨c, hc, t, e, l, ad, s, j, _, N.site⟩

/-- C29 (partial), second half: whatever numbers of at least one are filled in for the lengths of the blocks, at most
`(lim + 3) * (number of blocks + 1)` blocks are entered, and after a number of steps that depends on the function and
the limit only, no execution is still running.  The limit must not be negative, see `C29_violated_negative`, and no jump
may lead to the entry, see `C29_violated_reset`. -/
theorem C29_bounded_partial {rs : List Nat} {acc : Bool} {lim : BitVec 32} {f g h : Fn} (hi : Input rs f) (hg : insnCounter rs acc lim f = .ok g)
    (hh : Filled g h) (hl : lim.toNat < 2 ^ 31) :
    ∃ K, ∀ (W : World), 4 ≤ W.wid f.next → ∀ (σ : St) (m : Nat),
      (trail W h m h.entry (h.body h.entry) σ).length ≤ (lim.toNat + 3) * (h.allBbs.length + 1) ∧
      (K ≤ m → ∀ c r τ, runFn W h m σ ≠ .running c r τ) := by
  obtain ⟨f1, bs, U, R, hb⟩ := insnCounter_built hi.shape hi.noPhis hi.nodup hi.blocks hi.all hg
  have he := preds_entry hi.shape hi.entry U R
  have I := filled_inst hi.shape hi.entry U R hh
  obtain ⟨i, e⟩ := hh.same
  refine ⟨(lim.toNat + 3) * (h.allBbs.length + 1) * (longest h + 1) + 1, fun W hw σ m => ?_⟩
  have := I.bound hw hl (fun C hC hcn => by
    have hC' : Cyclic g C := ⟨hC.nonempty, by have := hC.pred; rw [e] at this; exact this⟩
    exact R.cycle U.shape he hb hC' (fun c hc => conn_same (by rw [e]) (by rw [e]) (hcn c hc))) σ m
  refine ⟨by omega, fun hm c r τ hrun => ?_⟩
  have := this.2 c r τ hrun
  omega

/-- The lengths the compiler fills in are such numbers. -/
theorem C29_filled {rs : List Nat} {g : Fn} (hs : Shape g) (hr : ∀ b, Conn g b → b ∈ rs) (hl : ∀ b ∈ rs, (g.body b).length < 2 ^ 32) :
    Filled g (replaceBuiltin rs g) := by
  refine ⟨⟨_, rfl⟩, ?_, ?_⟩
  · intro b hb x hx h1 h2
    have hin : x ∈ rs.flatMap g.body := List.mem_flatMap.2 ⟨b, hr b hb, hx⟩
    have hp := hs.tidy.parent b (Conn.mem hs hb) x hx
    have hlt : insnCnt g b < 2 ^ 32 := Nat.lt_of_le_of_lt (List.length_filter_le ..) (hl b (hr b hb))
    have h0 : 1 ≤ insnCnt g b := List.length_pos_of_mem (List.mem_filter.2 ⟨hx, by simp [h1, h2]⟩)
    refine ⟨BitVec.ofNat 64 (insnCnt g b), ?_, ?_, ?_⟩
    · rw [BitVec.toNat_ofNat, Nat.mod_eq_of_lt (by omega)]; exact h0
    · rw [BitVec.toNat_ofNat, Nat.mod_eq_of_lt (by omega)]; exact hlt
    · simp only [replaceBuiltin]
      rw [if_pos hin, hp]
  · intro x
    simp only [replaceBuiltin]
    split
    · exact .inr ⟨_, rfl⟩
    · exact .inl rfl

/-! ## C30 -/

/-- C30 (partial): no execution performs more than 100 of the jumps (returns and throws included) of the function before the
pass.  No jump may lead to the entry, see `C30_violated`. -/
theorem C30_at_most_100_partial {rs : List Nat} {f g : Fn} (hi : Input rs f) (h : jmpComplexity rs f = .ok g) (W : World) (hw : 4 ≤ W.wid f.next) (σ : St) (m : Nat) :
    ((path W g m g.entry (g.body g.entry) σ).filter fun x => decide (x < f.next) && isJmp (f.insn x).op).length ≤ 100 := by
  by_cases hne : jumps rs f = []
  · have hg : g = f := by
      unfold jmpComplexity at h
      rw [hne] at h
      cases h; rfl
    subst hg
    let P : Nat → List Nat → St → List Nat → List Nat → Nat → Prop := fun c r _ H _ _ => Conn g c ∧ (∀ x ∈ r, x ∈ g.body c) ∧ H.filter (oldJump g) = []
    have hno : ∀ {c x}, Conn g c → x ∈ g.body c → oldJump g x = false := by
      intro c x hc hx
      cases hj : oldJump g x with
      | false => rfl
      | true =>
        unfold oldJump at hj
        simp only [Bool.and_eq_true] at hj
        have : x ∈ jumps rs g := mem_jumps.2 ⟨c, hi.all c hc, hx, hj.2⟩
        rw [hne] at this; cases this
    have hP : ∀ c r σ H B k c1 r1 τ, P c r σ H B k → IR.step W g c r σ = .goto c1 r1 τ → P c1 r1 τ (H ++ r.take 1) (B ++ if IR.leaves g r then [c1] else []) (k + 1) := by
      rintro c r σ H B k c1 r1 τ ⟨h1, h2, h3⟩ hst
      have hH : (H ++ r.take 1).filter (oldJump g) = [] := by
        rw [List.filter_append, h3, List.nil_append, List.filter_eq_nil_iff]
        intro x hx hj
        rw [hno h1 (h2 x (List.take_subset _ _ hx))] at hj; cases hj
      rcases step_cases hst with ⟨x, rfl, rfl, _, _⟩ | ⟨w, rfl, _⟩
      · exact ⟨h1, fun x hx => h2 x (List.mem_cons_of_mem _ hx), hH⟩
      · exact ⟨.step h1 (Way.succ hi.shape (Conn.mem hi.shape h1) h2 w), fun x hx => mem_codeOf hx, hH⟩
    have h0 : P g.entry (g.body g.entry) σ [] [] 0 := ⟨.entry, fun _ h => h, rfl⟩
    obtain ⟨c1, r1, τ, H1, k1, ⟨h1, h2, h3⟩, h6, _⟩ := hist_inv P hP m (H := []) (B := []) (k := 0) h0
    show ((path W g m g.entry (g.body g.entry) σ).filter (oldJump g)).length ≤ 100
    rcases h6 with h6 | h6 <;> rw [List.nil_append] at h6 <;> rw [h6]
    · rw [h3]; simp
    · rw [List.filter_append, h3]
      have := (List.filter_sublist (l := r1.take 1) (p := oldJump g)).length_le
      have := List.length_take_le 1 r1
      simp only [List.nil_append]
      omega
  · obtain ⟨f1, bs, U, R, hb, _⟩ := jmp_built hi.shape hi.noPhis hi.nodup hi.blocks hne h
    exact jump_bound hi.shape hi.entry U R hi.all hb hw (by decide) σ m

/-! ## Examples -/

/-- `b0: ja b1`, `b1: x = r1 + 1; if x == r2 goto b2 else b1`, `b2: ret x` -/
def loopFn : Fn :=
  let f := newBb (newBb emptyFn)
  let f := createBb f (mkJa 1) 0 .back
  let f := connect f 0 1
  let f := createBb f (mkBin .add .w64 (.insn 1) (const32 1)) 1 .back
  let f := createBb f (mkJbin .jeq .w64 (.insn 7) (.insn 2) 1 2) 1 .back
  let f := connect (connect f 1 1) 1 2
  createBb f (mkRet (.insn 7)) 2 .back

theorem loopFn_input : Input [0, 1, 2] loopFn := by
  have hs : Shape loopFn := shape_of_check (by decide +kernel)
  exact ⟨hs, by decide, by decide +kernel, fun b hb => Conn.mem hs hb, by decide +kernel, by decide +kernel⟩

def goSt (a b : BitVec 64) : St := { env := fun x => if x = 1 then a else if x = 2 then b else 0, var := fun _ => 77, mem := fun _ => 0, trace := [] }

/-- How a run ends, and the number of blocks entered. -/
def ending (f : Fn) (k : Nat) (a b : BitVec 64) : Option (Option (BitVec 64)) × Nat :=
  (match runFn Lift.exWI f k (goSt a b) with
    | .done x _ => some (some x)
    | .thrown _ => some none
    | _ => none,
   (trail Lift.exWI f k f.entry (f.body f.entry) (goSt a b)).length)

/-- Both modes count the loop of `loopFn`: it ends with the result if the loop is left, and throws otherwise. -/
example : onOk (insnCounter [0, 1, 2] false 50 loopFn) (fun g =>
      ending (replaceBuiltin g.allBbs g) 20 1 2 == (some (some 2), 3) && ending (replaceBuiltin g.allBbs g) 200 1 7 == (some none, 22) &&
      (g.body 1 == [7, 12, 13, 14, 16])) = true ∧
    onOk (insnCounter [0, 1, 2] true 50 loopFn) (fun g => ending (replaceBuiltin g.allBbs g) 20 1 2 == (some (some 2), 4) &&
      ending (replaceBuiltin g.allBbs g) 200 1 7 == (some none, 21)) = true := by
  decide +kernel

/-- The jump counter: without a way out, `loopFn` is left after 100 jumps. -/
example : onOk (jmpComplexity [0, 1, 2] loopFn) (fun g => ending g 30 1 2 == (some (some 2), 5) && ending g 2000 1 7 == (some none, 201) &&
    ((path Lift.exWI g 2000 g.entry (g.body g.entry) (goSt 1 7)).filter fun x => decide (x < loopFn.next) && isJmp (loopFn.insn x).op).length == 100) = true := by
  decide +kernel

/-! ## Violations -/

theorem forever {W : World} {f : Fn} (P : Nat → List Nat → St → Prop) (hP : ∀ c r σ, P c r σ → ∃ c1 r1 τ, IR.step W f c r σ = .goto c1 r1 τ ∧ P c1 r1 τ) :
    ∀ (m : Nat) {c r σ}, P c r σ → ∃ c1 r1 τ, run W f m c r σ = .running c1 r1 τ := by
  intro m
  induction m with
  | zero => intro c r σ _; exact ⟨c, r, σ, rfl⟩
  | succ m ih =>
    intro c r σ h
    obtain ⟨c1, r1, τ, h1, h2⟩ := hP c r σ h
    simp only [run, h1]
    exact ih h2

/-- `b0: ja b0` -/
def selfFn : Fn := connect (createBb emptyFn (mkJa 0) 0 .back) 0 0

def getOk (o : Out Fn) : Fn := match o with | .ok g => g | _ => emptyFn

/-- The hypotheses of `C29_bounded_partial` hold for `loopFn`, in both modes. -/
example : ∀ acc, ∃ g, insnCounter [0, 1, 2] acc 50 loopFn = .ok g ∧ Filled g (replaceBuiltin g.allBbs g) := by
  intro acc
  have hs : Shape (getOk (insnCounter [0, 1, 2] acc 50 loopFn)) := shape_of_check (by cases acc <;> decide +kernel)
  refine ⟨getOk (insnCounter [0, 1, 2] acc 50 loopFn), by cases acc <;> rfl, C29_filled hs (fun b hb => Conn.mem hs hb) ?_⟩
  cases acc <;> decide +kernel

/-- C29 is violated when the entry is in a cycle: in fast mode a block with one predecessor gets no counter, and the
function runs forever. -/
theorem C29_violated_entry : Shape selfFn ∧ phisOf selfFn selfFn.entry = [] ∧ ∃ g, insnCounter [0] false 50 selfFn = .ok g ∧
    ∀ (W : World) (σ : St) (m : Nat), ∃ c r τ, runFn W (replaceBuiltin [0] g) m σ = .running c r τ := by
  refine ⟨shape_of_check (by decide +kernel), by decide +kernel, getOk (insnCounter [0] false 50 selfFn), rfl, ?_⟩
  intro W σ m
  generalize hg : replaceBuiltin [0] (getOk (insnCounter [0] false 50 selfFn)) = g
  have b0 : g.body 0 = [7, 8, 6] := by rw [← hg]; decide +kernel
  have e0 : g.entry = 0 := by rw [← hg]; decide +kernel
  have i6 : g.insn 6 = mkJa 0 := by rw [← hg]; decide +kernel
  have i7 : g.insn 7 = mkAlloc .t32 := by rw [← hg]; decide +kernel
  have i8 : g.insn 8 = mkStore 7 (const32 0) := by rw [← hg]; decide +kernel
  unfold runFn
  rw [e0]
  refine forever (fun c r _ => c = 0 ∧ (r = [7, 8, 6] ∨ r = [8, 6] ∨ r = [6])) ?_ m ⟨rfl, .inl b0⟩
  rintro c r σ ⟨rfl, rfl | rfl | rfl⟩
  · exact ⟨0, [8, 6], σ, by simp [IR.step, i7, mkAlloc, Norm.Op.condJmp, exec], by simp⟩
  · exact ⟨0, [6], _, by simp [IR.step, i8, mkStore, const32, Norm.Op.condJmp, exec, eval]; rfl, by simp⟩
  · refine ⟨0, [7, 8, 6], σ, ?_, by simp⟩
    simp [IR.step, i6, mkJa, IR.enter, phisOf, codeOf, b0, i7, mkAlloc, List.takeWhile_cons, List.dropWhile_cons, phiAssign]

/-- C29 is violated in accurate mode too: the counter is set to zero whenever the entry is executed. -/
theorem C29_violated_reset : Shape selfFn ∧ phisOf selfFn selfFn.entry = [] ∧ ∃ g, insnCounter [0] true 50 selfFn = .ok g ∧ Counts g 7 50 0 ∧
    ∀ (W : World), 4 ≤ W.wid 7 → ∀ (σ : St) (m : Nat), ∃ c r τ, runFn W (replaceBuiltin g.allBbs g) m σ = .running c r τ := by
  refine ⟨shape_of_check (by decide +kernel), by decide +kernel, getOk (insnCounter [0] true 50 selfFn), rfl, ?_, ?_⟩
  · exact ⟨1, 2, 9, 10, 11, 13, cntVal, by decide +kernel, by decide +kernel, by decide +kernel, by decide +kernel, by decide +kernel, by decide +kernel, by decide,
      ⟨[7, 8], by decide +kernel⟩, ⟨12, by decide +kernel, by decide +kernel⟩, by decide +kernel⟩
  intro W hw σ m
  generalize hg : replaceBuiltin (getOk (insnCounter [0] true 50 selfFn)).allBbs (getOk (insnCounter [0] true 50 selfFn)) = g
  have b0 : g.body 0 = [7, 8, 9, 10, 11, 13] := by rw [← hg]; decide +kernel
  have b1 : g.body 1 = [6] := by rw [← hg]; decide +kernel
  have e0 : g.entry = 0 := by rw [← hg]; decide +kernel
  have i6 : g.insn 6 = mkJa 0 := by rw [← hg]; decide +kernel
  have i7 : g.insn 7 = mkAlloc .t32 := by rw [← hg]; decide +kernel
  have i8 : g.insn 8 = mkStore 7 (const32 0) := by rw [← hg]; decide +kernel
  have i9 : g.insn 9 = mkLoad (.insn 7) := by rw [← hg]; decide +kernel
  have i10 : g.insn 10 = mkBin .add .w64 (.insn 9) (.const .plain 5 .w32 .bbInsnCnt) := by rw [← hg]; decide +kernel
  have i11 : g.insn 11 = mkStore 7 (.insn 10) := by rw [← hg]; decide +kernel
  have i13 : g.insn 13 = mkJbin .jgt .w64 (.insn 10) (const32 50) 1 2 := by rw [← hg]; decide +kernel
  unfold runFn
  rw [e0, b0]
  refine forever (fun c r σ => (c = 0 ∧ (r = [7, 8, 9, 10, 11, 13] ∨ r = [8, 9, 10, 11, 13] ∨ (r = [9, 10, 11, 13] ∧ σ.var 7 = 0) ∨ (r = [10, 11, 13] ∧ σ.env 9 = 0) ∨
    (r = [11, 13] ∧ σ.env 10 = 5) ∨ (r = [13] ∧ σ.env 10 = 5))) ∨ (c = 1 ∧ r = [6])) ?_ m (.inl ⟨rfl, .inl rfl⟩)
  rintro c r σ (⟨rfl, rfl | rfl | ⟨rfl, h⟩ | ⟨rfl, h⟩ | ⟨rfl, h⟩ | ⟨rfl, h⟩⟩ | ⟨rfl, rfl⟩)
  · exact ⟨0, _, σ, by simp [IR.step, i7, mkAlloc, Norm.Op.condJmp, exec]; rfl, by simp⟩
  · exact ⟨0, _, _, by simp [IR.step, i8, mkStore, const32, Norm.Op.condJmp, exec, eval]; exact ⟨rfl, rfl⟩, by simp⟩
  · exact ⟨0, _, _, by simp [IR.step, i9, mkLoad, Norm.Op.condJmp, exec, h]; exact ⟨rfl, rfl⟩, by simp [St.set, Flat.truncBytes]⟩
  · exact ⟨0, _, _, by simp [IR.step, i10, mkBin, Norm.Op.condJmp, exec, eval, Flat.aluOp, Flat.width, h]; exact ⟨rfl, rfl⟩, by simp [St.set, Bpf.alu, Bpf.aluW]⟩
  · exact ⟨0, _, _, by simp [IR.step, i11, mkStore, Norm.Op.condJmp, exec, eval]; exact ⟨rfl, rfl⟩, by simp [h]⟩
  · refine ⟨1, [6], σ, ?_, by simp⟩
    have : taken (mkJbin .jgt .w64 (.insn 10) (const32 50) 1 2) σ = some false := by
      simp [taken, mkJbin, const32, Flat.condOp, Flat.width, eval, h, Bpf.cond, Bpf.condW]
    simp only [IR.step, i13, this]
    simp [mkJbin, Norm.Op.condJmp, IR.enter, phisOf, codeOf, b1, i6, mkJa, List.takeWhile_cons, List.dropWhile_cons, phiAssign]
  · refine ⟨0, _, σ, ?_, .inl ⟨rfl, .inl rfl⟩⟩
    simp [IR.step, i6, mkJa, IR.enter, phisOf, codeOf, b0, i7, mkAlloc, List.takeWhile_cons, List.dropWhile_cons, phiAssign]

/-- `b0: ja b1`, `b1: ja b1` -/
def spinFn : Fn :=
  let f := newBb emptyFn
  let f := createBb f (mkJa 1) 0 .back
  let f := connect f 0 1
  connect (createBb f (mkJa 1) 1 .back) 1 1

/-- C29 is violated for negative limits (which the option parser accepts): the limit is compared as an unsigned 64-bit
number, and the function runs forever. -/
theorem C29_violated_negative : Input [0, 1] spinFn ∧ ∃ g, insnCounter [0, 1] false (-1) spinFn = .ok g ∧ Counts g 8 (-1) 1 ∧
    ∀ (W : World), W.wid 8 = 4 → ∀ (σ : St) (m : Nat), ∃ c r τ, runFn W (replaceBuiltin g.allBbs g) m σ = .running c r τ := by
  have hs : Shape spinFn := shape_of_check (by decide +kernel)
  refine ⟨⟨hs, by decide, by decide +kernel, fun b hb => Conn.mem hs hb, by decide +kernel, by decide +kernel⟩, getOk (insnCounter [0, 1] false (-1) spinFn), rfl, ?_, ?_⟩
  · exact ⟨2, 3, 10, 11, 12, 14, cntVal, by decide +kernel, by decide +kernel, by decide +kernel, by decide +kernel, by decide +kernel, by decide +kernel, by decide,
      ⟨[], by decide +kernel⟩, ⟨13, by decide +kernel, by decide +kernel⟩, by decide +kernel⟩
  intro W hw σ m
  generalize hg : replaceBuiltin (getOk (insnCounter [0, 1] false (-1) spinFn)).allBbs (getOk (insnCounter [0, 1] false (-1) spinFn)) = g
  have b0 : g.body 0 = [8, 9, 6] := by rw [← hg]; decide +kernel
  have b1 : g.body 1 = [10, 11, 12, 14] := by rw [← hg]; decide +kernel
  have b2 : g.body 2 = [7] := by rw [← hg]; decide +kernel
  have e0 : g.entry = 0 := by rw [← hg]; decide +kernel
  have i6 : g.insn 6 = mkJa 1 := by rw [← hg]; decide +kernel
  have i7 : g.insn 7 = mkJa 1 := by rw [← hg]; decide +kernel
  have i8 : g.insn 8 = mkAlloc .t32 := by rw [← hg]; decide +kernel
  have i9 : g.insn 9 = mkStore 8 (const32 0) := by rw [← hg]; decide +kernel
  have i10 : g.insn 10 = mkLoad (.insn 8) := by rw [← hg]; decide +kernel
  have i11 : g.insn 11 = mkBin .add .w64 (.insn 10) (.const .plain 4 .w32 .bbInsnCnt) := by rw [← hg]; decide +kernel
  have i12 : g.insn 12 = mkStore 8 (.insn 11) := by rw [← hg]; decide +kernel
  have i14 : g.insn 14 = mkJbin .jgt .w64 (.insn 11) (const32 (-1)) 2 3 := by rw [← hg]; decide +kernel
  unfold runFn
  rw [e0, b0]
  refine forever (fun c r σ => (c = 0 ∧ (r = [8, 9, 6] ∨ r = [9, 6] ∨ r = [6])) ∨ (c = 1 ∧ (r = [10, 11, 12, 14] ∨ (r = [11, 12, 14] ∧ (σ.env 10).toNat < 2 ^ 32) ∨
    (r = [12, 14] ∧ (σ.env 11).toNat < 2 ^ 33) ∨ (r = [14] ∧ (σ.env 11).toNat < 2 ^ 33))) ∨ (c = 2 ∧ r = [7])) ?_ m (.inl ⟨rfl, .inl rfl⟩)
  rintro c r σ (⟨rfl, rfl | rfl | rfl⟩ | ⟨rfl, rfl | ⟨rfl, h⟩ | ⟨rfl, h⟩ | ⟨rfl, h⟩⟩ | ⟨rfl, rfl⟩)
  · exact ⟨0, _, σ, by simp [IR.step, i8, mkAlloc, Norm.Op.condJmp, exec]; rfl, by simp⟩
  · exact ⟨0, _, _, by simp [IR.step, i9, mkStore, const32, Norm.Op.condJmp, exec, eval]; exact ⟨rfl, rfl⟩, by simp⟩
  · refine ⟨1, _, σ, ?_, .inr (.inl ⟨rfl, .inl rfl⟩)⟩
    simp [IR.step, i6, mkJa, IR.enter, phisOf, codeOf, b1, i10, mkLoad, List.takeWhile_cons, List.dropWhile_cons, phiAssign]
  · refine ⟨1, _, _, by simp [IR.step, i10, mkLoad, Norm.Op.condJmp, exec, hw]; rfl, .inr (.inl ⟨rfl, .inr (.inl ⟨rfl, ?_⟩)⟩)⟩
    simp only [St.set, if_true, Flat.truncBytes]
    rw [BitVec.toNat_setWidth]
    exact Nat.lt_of_le_of_lt (Nat.mod_le _ _) (BitVec.isLt _)
  · refine ⟨1, _, _, by simp [IR.step, i11, mkBin, Norm.Op.condJmp, exec, eval, Flat.aluOp, Flat.width]; rfl, .inr (.inl ⟨rfl, .inr (.inr (.inl ⟨rfl, ?_⟩))⟩)⟩
    simp only [St.set, if_true, Bpf.alu, Bpf.aluW]
    rw [BitVec.toNat_add]
    have : (4#64).toNat = 4 := rfl
    exact Nat.lt_of_le_of_lt (Nat.mod_le _ _) (by omega)
  · exact ⟨1, _, { σ with var := fun z => if z = 8 then σ.env 11 else σ.var z }, by simp [IR.step, i12, mkStore, Norm.Op.condJmp, exec, eval], .inr (.inl ⟨rfl, .inr (.inr (.inr ⟨rfl, h⟩))⟩)⟩
  · refine ⟨2, [7], σ, ?_, by simp⟩
    have : taken (mkJbin .jgt .w64 (.insn 11) (const32 (-1)) 2 3) σ = some false := by
      have e : (BitVec.signExtend 64 (-1 : BitVec 32)).toNat = 2 ^ 64 - 1 := by decide
      simp only [taken, mkJbin, const32, Flat.condOp, Flat.width, eval, Option.bind_eq_bind, Option.bind_some, Bpf.cond, if_true, Bpf.condW, BitVec.ult, e]
      rw [decide_eq_false (by omega)]
    simp only [IR.step, i14, this]
    simp [mkJbin, Norm.Op.condJmp, IR.enter, phisOf, codeOf, b2, i7, mkJa, List.takeWhile_cons, List.dropWhile_cons, phiAssign]
  · refine ⟨1, _, σ, ?_, .inr (.inl ⟨rfl, .inl rfl⟩)⟩
    simp [IR.step, i7, mkJa, IR.enter, phisOf, codeOf, b1, i10, mkLoad, List.takeWhile_cons, List.dropWhile_cons, phiAssign]

/-- C30 is violated when the entry is in a cycle: the counter is set to zero whenever the entry is executed. -/
theorem C30_violated : Shape selfFn ∧ phisOf selfFn selfFn.entry = [] ∧ onOk (jmpComplexity [0] selfFn) (fun g =>
    100 < ((path Lift.exWI g 1000 g.entry (g.body g.entry) (goSt 0 0)).filter fun x => decide (x < selfFn.next) && isJmp (selfFn.insn x).op).length) = true := by
  exact ⟨shape_of_check (by decide +kernel), by decide +kernel, by decide +kernel⟩

end Verif.Count
