import Verif.Pipe.Clobber
/-!
# C62: helpers may spoil r1 to r5
-/
namespace Verif.Pipe
open Verif Verif.IR
open Verif.Bpf (Slot Instr decode Legal SlotReach Stale ReadsStale Helps flow reads writes KnownRegs Unknown ReadsUnset)
open Verif.Flatten (cut InFrame Spilled exM Serves Sane)
open Verif.Compile (startAt Regular worldOf compP)
open Verif.Lift (exL)

/-- C62: C58, C59 and C61 for helpers that leave what they like in r1 to r5, if the program does not read them after a call before it has written them: lifting and the passes succeed, the
function they hand on is well-formed SSA and does what the bytecode does. -/
theorem C62_passes {P : List Slot} (h : Fair P) (hr : KnownRegs P) (hs : ¬ Unknown P) (hi : ¬ ReadsUnset P) (hno : ¬ ReadsStale P) :
    ∃ n0, ∀ n, n0 ≤ n → ∃ g R k, (∀ fuel, k ≤ fuel → ∀ check, (do let s ← lift n fuel check P; passes fuel check s) = .ok (g, R)) ∧ LaidOut g R ∧ WellFormed g R ∧ Ssa g ∧ Ordered g ∧ UsersListed g ∧
      ∀ M W σ τ, Helps M W → Lift.Start σ τ → Lifts M P σ W g τ := by
  obtain ⟨n0, h0⟩ := C61_passes h hr hs hi
  refine ⟨n0, fun n hn => ?_⟩
  obtain ⟨g, R, k, h1, h2, h3, h4, h5, h6, h7⟩ := h0 n hn
  exact ⟨g, R, k, h1, h2, h3, h4, h5, h6, fun M W σ τ hW hst => (h7 (keeps M) W σ τ (keeps_agree hW) hst).spoil h.shaped.legal hno hW⟩

/-- C62 (partial): C60 for helpers that leave what they like in r1 to r5, before and after the run.  The same is missing as in `C60_autorun_partial`. -/
theorem C62_autorun_partial {P : List Slot} (h : Fair P) (hno : ¬ ReadsStale P) {n fuel : Nat} {check : Bool} {A : Run} (e : autorun n fuel check P = .ok A)
    (hform : ∀ x, InBody A.opt x → Stack.Form A.opt.sp A.res.depth .plain (A.opt.insn x))
    (hreg : Regular A.fn A.blocks A.res) (hoff : -2 ^ 31 ≤ A.res.al.off) (hp : ∀ b ∈ A.res.blocks, ∀ i ∈ b.insns, Emit.Plain i) (hout : A.res.code.length ≤ 32768)
    (M N : Bpf.World) (W : IR.World) (hM : Helps M W) (p : BitVec 64) (hN : Serves A.res.out.f A.blocks A.res.out.pos p N W)
    (hwid : ∀ a, InBody A.res.al.s.f a → A.res.al.s.f.insn a = Edit.mkAlloc .t64 → W.wid a = 8) (σ μ : Bpf.St)
    (hb : Enters p (A.res.depth.signExtend 64) (InFrame A.res.out.f A.blocks A.res.out.pos p) σ μ)
    (hs : Sane W A.res.out.f A.blocks A.res.out.pos p (startAt A.res.out.f A.blocks A.res.out.pos p (initial σ) μ)) :
    Rewrites M P σ N A.res.code μ (SameOutside (InFrame A.res.out.f A.blocks A.res.out.pos p)) :=
  (C60_autorun_partial h.shaped h.closed h.len h.usual h.clean e hform hreg hoff hp hout (keeps M) N W (keeps_agree hM) p hN hwid σ μ hb hs).spoil h.shaped.legal hno hM

/-! ## Examples -/

/-- `K` lists for each slot the registers that calls may have spoilt. -/
def staleB (P : List Slot) (K : List (List Nat)) : Bool :=
  (List.range P.length).all fun p => match P[p]? with
    | some s =>
      let w := match decode s with | some i => writes i | none => none
      (match decode s with | some i => (reads i).all fun r => !(K.getD p []).contains r | none => true) &&
      (flow P p).all fun q =>
        (match decode s with | some (.call _) => [1, 2, 3, 4, 5].all fun r => (K.getD q.toNat []).contains r | _ => true) &&
        (K.getD p []).all fun r => (K.getD q.toNat []).contains r || decide (w = some r)
    | none => true

theorem stale_of_check {P : List Slot} {K : List (List Nat)} (h : staleB P K = true) : ¬ ReadsStale P := by
  simp only [staleB, List.all_eq_true, List.mem_range] at h
  have key : ∀ r p, Stale P r p → r ∈ K.getD p [] := by
    intro r p hu
    induction hu with
    | @call p q s fid _ hs hd h1 h2 hf hq =>
      have := h p ((List.getElem?_eq_some_iff.1 hs).1)
      rw [hs] at this
      simp only [Bool.and_eq_true, List.all_eq_true, hd] at this
      have := (this.2 (q : Int) hf).1 r (by
        have : r = 1 ∨ r = 2 ∨ r = 3 ∨ r = 4 ∨ r = 5 := by omega
        simpa using this)
      simpa using this
    | @next p q s _ hs hn hf hq ih =>
      have := h p ((List.getElem?_eq_some_iff.1 hs).1)
      rw [hs] at this
      simp only [Bool.and_eq_true, List.all_eq_true, Bool.or_eq_true, decide_eq_true_eq] at this
      rcases (this.2 (q : Int) hf).2 r ih with e | e
      · simpa using e
      · cases hd : decode s with
        | none => rw [hd] at e; cases e
        | some i => rw [hd] at e; exact absurd e (hn i hd)
  rintro ⟨p, s, i, r, hs, hd, hr, hu⟩
  have := h p ((List.getElem?_eq_some_iff.1 hs).1)
  rw [hs] at this
  simp only [Bool.and_eq_true, List.all_eq_true, hd] at this
  have := this.1 r hr
  rw [List.contains_eq_mem, decide_eq_true (key r p hu)] at this
  cases this

theorem exM_helps (r : Compile.Result) : Helps exM (worldOf r) := by
  refine ⟨rfl, fun tr fid args mem _ => ?_, fun _ _ _ _ _ => rfl⟩
  simp [exM, worldOf, List.take_take]

/-- A program with a loop and a call whose registers are known: what the call spoils is not read. -/
example : Fair exL ∧ KnownRegs exL ∧ ¬ Unknown exL ∧ ¬ ReadsUnset exL ∧ ¬ ReadsStale exL :=
  ⟨fair_of_check (by decide +kernel), Lift.known_of_check (by decide +kernel), Lift.unknown_of_check (by decide +kernel), Lift.init_of_check (K := Lift.exLK) (by decide +kernel),
    stale_of_check (K := [[], [], [], [], [], [], [], [], [], [], [1, 2, 3, 4, 5]]) (by decide +kernel)⟩

/-- The bytecode that a run makes of it does the same on the same machine, whose helpers spoil r1 to r5. -/
example : ∃ A, autorun 100 100 true exL = .ok A ∧
    Rewrites exM exL (entry (A.res.depth.signExtend 64)) exM A.res.code (entry 0) (SameOutside (InFrame A.res.out.f A.blocks A.res.out.pos compP)) := by
  have h : Cg.onOk (autorun 100 100 true exL) runB = true := by decide +kernel
  obtain ⟨A, e, h⟩ := Cg.of_onOk h
  obtain ⟨h1, h2, h3, h4, h5, h6, h7, h8⟩ := rewrites_conditions (fair_of_check (by decide +kernel)) e h
  exact ⟨A, e, C62_autorun_partial (fair_of_check (by decide +kernel)) (stale_of_check (K := [[], [], [], [], [], [], [], [], [], [], [1, 2, 3, 4, 5]]) (by decide +kernel)) e h1 h2 h3 h4 h5
    _ _ _ (exM_helps A.res) compP h6 (fun _ _ _ => rfl) _ _ h7 h8⟩

/-- `r6 = r1; call 5; r0 = r1; r0 -= r6; exit`: r1 is read after a call that has spoilt it. -/
def spoilt : List Slot := [⟨0xbf, 6, 1, 0, 0⟩, ⟨0x85, 0, 0, 0, 5⟩, ⟨0xbf, 0, 1, 0, 0⟩, ⟨0x1f, 0, 6, 0, 0⟩, ⟨0x95, 0, 0, 0, 0⟩]

/-- What it returns, and what it returns after a run, on the same machine. -/
def spoiltBoth : Option (BitVec 64 × BitVec 64) :=
  match autorun 100 100 true spoilt with
  | .ok A =>
    match Bpf.run exM spoilt 200 0 (entry (A.res.depth.signExtend 64)), Bpf.run exM A.res.code 200 0 (entry 0) with
    | .done v _, .done w _ => some (v, w)
    | _, _ => none
  | _ => none

/-- C62 does not hold of programs that read a spoilt register: the lifter takes r1 to hold what it held before the call. -/
theorem C62_violated_spoilt : Fair spoilt ∧ ReadsStale spoilt ∧ ∃ A, autorun 100 100 true spoilt = .ok A ∧
    ∀ E, ¬ Rewrites exM spoilt (entry (A.res.depth.signExtend 64)) exM A.res.code (entry 0) E := by
  refine ⟨fair_of_check (by decide +kernel), ⟨2, _, _, 1, rfl, rfl, by decide +kernel, .call (p := 1) (.next (.first (by decide)) ?_ ?_) rfl rfl (by decide) (by decide) ?_ (by decide)⟩, ?_⟩
  · decide +kernel
  · decide
  · decide +kernel
  have h : spoiltBoth = some (-5, 0) := by decide +kernel
  unfold spoiltBoth at h
  split at h
  · rename_i A e
    refine ⟨A, e, fun E hR => ?_⟩
    split at h
    · rename_i x1 x2 v' σ' w' μ' e1 e2
      cases h
      obtain ⟨m, μ1, e3, -⟩ := hR.returns _ _ _ e1
      exact absurd (bpf_done_unique e3 e2).1 (by decide)
    · cases h
  · cases h

end Verif.Pipe
