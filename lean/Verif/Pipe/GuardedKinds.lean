import Verif.Pipe.KindProps
import Verif.Pipe.GuardedFit
/-!
# Runs with guarded divisions of programs whose registers have kinds
-/
namespace Verif.Pipe
open Verif Verif.IR Verif.Lift
open Verif.Bpf (Slot Formed Closed Kind Typed FrameIn SlotReach ReadsStale)
open Verif.Edit (raw refs_eq)
open Verif.Stack (Form)
open Verif.Flatten (cut)

variable {f g : Fn} {A : Nat → Prop} {B : BitVec 16 → Prop}

/-- What is known of an instruction that accesses no memory and is no phi. -/
theorem held_calc {i : Insn} (hr : raw i.op = false) (h : ∀ v ∈ Edit.operands i, Den A .any v) : Held A B i :=
  ⟨form_other h (fun k => absurd (hr.symm.trans k) (by simp)), fun k => absurd (hr.symm.trans k) (by simp), fun k => absurd (hr.symm.trans k) (by simp)⟩

/-- An operand of a division is not the frame pointer. -/
theorem div_any (hf : AllHeld A B f) {d y : Nat} (hd : InBody f d) (ho : (f.insn d).op = .div) (hm : .insn y ∈ Edit.operands (f.insn d)) : Den A .any (.insn y) := by
  refine ⟨fun e => ?_, fun _ _ _ _ e => by cases e⟩
  rw [e] at hm
  cases (hf d hd).1.form with
  | other h1 _ =>
    rw [refs_eq] at h1
    exact List.count_eq_zero.1 h1 hm
  | access h1 => rcases h1 with h1 | h1 <;> rw [ho] at h1 <;> cases h1
  | add _ _ _ h1 => rw [ho] at h1; cases h1

/-- The guards keep it. -/
theorem held_checked (hf : AllHeld A B f) (h : Checked f g) : AllHeld A B g := by
  intro x hx
  rcases h x hx with ⟨h1, e⟩ | e | ⟨y, n, e', d, e, hd, ho, hm⟩
  · rw [e]; exact hf x h1
  · rw [e]
    exact ⟨held_calc rfl (fun v hv => by cases hv), fun k => by cases k⟩
  · rw [e]
    refine ⟨held_calc rfl (fun v hv => ?_), fun k => by cases k⟩
    have : v = .insn y ∨ v = Edit.const32 0 := by simpa [DivZero.jump, Edit.mkJbin, Edit.operands, raw] using hv
    rcases this with rfl | rfl
    · exact div_any hf hd ho hm
    · exact den_imm 0

/-- `translate_throw` keeps it. -/
theorem held_noThrows (hf : AllHeld A B f) : AllHeld A B (noThrows f) := by
  intro x hx
  have hx' : InBody f x := hx
  rcases noThrows_cases f x with ⟨e, _⟩ | ⟨e, _, ho⟩
  · rw [e]; exact hf x hx'
  · rw [e]
    refine ⟨held_calc rfl (fun v hv => ?_), fun k => by cases k⟩
    have : v = Edit.const32 1 := by simpa [Edit.operands, raw] using hv
    rw [this]
    exact den_imm 1

/-- The function that `div_by_zero` gets. -/
theorem early_held {P : List Slot} (hP : Fair P) {T : Nat → Nat → Kind} (hT : Typed P T) (hB : FrameIn B P) {n fuel : Nat} {check : Bool} {m : Fn} {R : List Nat}
    (e : early n fuel check P = .ok (m, R)) : ∃ A, AllHeld A B m := by
  unfold early at e
  obtain ⟨⟨f1, R1⟩, e1, e⟩ := Out.bind_eq_ok.1 e
  unfold lift at e1
  obtain ⟨f, hf, e1⟩ := Out.bind_eq_ok.1 e1
  obtain ⟨g', h1, -, h3⟩ := lift_code hP.shaped hP.closed hP.len hP.usual hf
  obtain ⟨k, R', hl, hk⟩ := post_of h1 h3
  have e1' := post_mono e1 (show fuel ≤ fuel + k by omega)
  rw [hk _ (by omega)] at e1'
  cases e1'
  obtain ⟨⟨A, hA⟩, h0⟩ := lift_held hP.shaped hP.len hT hB hf
  unfold pass at e
  obtain ⟨m1, a1, e⟩ := Out.bind_eq_ok.1 e
  dsimp only at a1
  obtain ⟨k1, m', b1, c1⟩ := removeTrivial_code h3 hl
  have a1' := Phi.removeTrivial_mono _ _ _ a1 (fuel + k1) (by omega)
  rw [b1 _ (by omega)] at a1'
  cases a1'
  obtain ⟨k2, R2', l2, _, b2⟩ := (h3.pruned c1).post
  have e' := post_mono e (show fuel ≤ fuel + k2 by omega)
  rw [b2 _ (by omega)] at e'
  cases e'
  exact ⟨A, held_pruned (f := withSuccs f g') (A := A) hA h0 c1⟩

/-- The optimised function. -/
theorem guarded_held {P : List Slot} (hP : Fair P) {T : Nat → Nat → Kind} (hT : Typed P T) (hB : FrameIn B P) {n fuel : Nat} {check : Bool} {R : GuardedRun}
    (e : autorunGuards n fuel check P = .ok R) (hn : NoLabels R.reach R.lifted) : R.opt.sp = 0 ∧ ∃ A, AllHeld A B R.opt := by
  have hsp := (guarded_parts hP.shaped hP.closed hP.len hP.usual hP.clean e hn).2.2.1
  refine ⟨hsp, ?_⟩
  unfold autorunGuards at e
  obtain ⟨⟨f1, R1⟩, e1, e⟩ := Out.bind_eq_ok.1 e
  obtain ⟨⟨f2, R2⟩, e2, e⟩ := Out.bind_eq_ok.1 e
  obtain ⟨⟨f3, R3⟩, e3, e⟩ := Out.bind_eq_ok.1 e
  obtain ⟨r, e4, e⟩ := Out.bind_eq_ok.1 e
  cases e
  dsimp only at hn ⊢
  obtain ⟨A, hA⟩ := early_held hP hT hB e1
  have hf : ∃ f, Lift.lift n P = .ok f := by
    unfold early lift at e1
    obtain ⟨_, e1, _⟩ := Out.bind_eq_ok.1 e1
    obtain ⟨f, hf, _⟩ := Out.bind_eq_ok.1 e1
    exact ⟨f, hf⟩
  obtain ⟨f, hf⟩ := hf
  obtain ⟨m, R, k, a1, a2, a3, a4, -⟩ := early_of hP.shaped hP.closed hP.len hP.usual hP.clean hf
  have := early_less hP.shaped hP.closed hP.len hP.usual e1 (show fuel ≤ fuel + k by omega)
  rw [a1 _ (by omega)] at this
  cases this
  obtain ⟨g, k', u, R', b1, b2, b3, b4, -, -, -, -, -, -, b5, R1, b6⟩ := guardPasses_code a2 a4 a3 hn
  have := b4 _ _ _ e2
  cases this
  exact ⟨A, held_cut (held_noThrows (held_checked hA b5)) b6⟩

theorem guarded_usual {P : List Slot} (hP : Fair P) {T : Nat → Nat → Kind} (hT : Typed P T) {n fuel : Nat} {check : Bool} {R : GuardedRun} (e : autorunGuards n fuel check P = .ok R)
    (hn : NoLabels R.reach R.lifted) : (∀ x, InBody R.opt x → Form R.opt.sp 0 .plain (R.opt.insn x)) ∧ NoFixedAccess R.opt := by
  obtain ⟨h1, A, h2⟩ := guarded_held hP hT (frameIn_true P) e hn
  exact ⟨fun x hx => by rw [h1]; exact (h2 x hx).1.form, h2.access⟩

/-- **C80** for runs with `div_by_zero`, with the conditions on frame pointer and addresses on the program.  Missing: programs where a phi is fed from a block with a division (`NoLabels`; see
`C70_violated_phi`). -/
theorem C80_typed_guarded_partial {P : List Slot} (hP : Fair P) {T : Nat → Nat → Kind} (hT : Typed P T) {n fuel : Nat} {check : Bool} {R : GuardedRun} (e : autorunGuards n fuel check P = .ok R)
    (hn : NoLabels R.reach R.lifted) (hlen : R.res.code.length ≤ 32768) : Formed R.res.code ∧ Closed R.res.code :=
  (C80_run_partial hP).2 R e hn (guarded_usual hP hT e hn).1 (guarded_usual hP hT e hn).2 hlen

/-- **C81** for runs with `div_by_zero`, with the conditions on frame pointer and addresses on the program. -/
theorem C81_typed_guarded_partial {P : List Slot} (hP : Fair P) {T : Nat → Nat → Kind} (hT : Typed P T) {n fuel : Nat} {check : Bool} {R : GuardedRun} (e : autorunGuards n fuel check P = .ok R)
    (hn : NoLabels R.reach R.lifted) (hlen : R.res.code.length ≤ 32768) : ∀ p < R.res.code.length, SlotReach R.res.code p :=
  (C81_run_partial hP).2 R e hn (guarded_usual hP hT e hn).1 (guarded_usual hP hT e hn).2.store hlen

/-- **C76** for runs with `div_by_zero`, with the conditions on frame pointer and addresses on the program: they end with bytecode or an error. -/
theorem C76_typed_guarded_partial {P : List Slot} (hP : Fair P) {T : Nat → Nat → Kind} (hT : Typed P T) {n : Nat} {f0 : Fn} (hf : Lift.lift n P = .ok f0) :
    ∃ f R k, (∀ fuel, k ≤ fuel → ∀ check, early n fuel check P = .ok (f, R)) ∧
      (NoLabels R f → ∃ k', ∀ fuel, k' ≤ fuel → ∀ check, autorunGuards n fuel check P = .err ∨ ∃ A, autorunGuards n fuel check P = .ok A) := by
  obtain ⟨f, R, k, h1, h2⟩ := C76_guarded_partial hP hf
  refine ⟨f, R, k, h1, fun hn => ?_⟩
  obtain ⟨g, R', k', h3, h4⟩ := h2 hn
  obtain ⟨m, Rm, km, a1, a2, a3, a4, a5, -⟩ := early_of hP.shaped hP.closed hP.len hP.usual hP.clean hf
  have := h1 (k + km) (by omega) true
  rw [a1 _ (by omega)] at this
  cases this
  obtain ⟨A, hA⟩ := early_held hP hT (frameIn_true P) (a1 km (Nat.le_refl _) true)
  obtain ⟨g1, kg, u, Ru, b1, b2, b3, b4, -, -, -, b7, -, -, b5, R1, b6⟩ := guardPasses_code a2 a4 a3 hn
  have := b4 _ _ _ (h3 k' (Nat.le_refl _) true)
  cases this
  have hu := held_cut (held_noThrows (held_checked hA b5)) b6
  exact h4 (fun x hx => by rw [b7.trans a5]; exact (hu x hx).1.form) hu.access.store

/-- **C74** with the condition on the frame pointer on the program: the two programs do the same, or the given one gets to a division by a register that holds zero and the other returns 1. -/
theorem C74_typed_partial {P : List Slot} (h : Fair P) {T : Nat → Nat → Kind} (hT : Typed P T) (hno : ¬ ReadsStale P) {n fuel : Nat} {check : Bool} {A : GuardedRun}
    (e : autorunGuards n fuel check P = .ok A) (hn : NoLabels A.reach A.lifted) (hoff : A.res.al.off = 0) (hone : Fit.OneArg A.fn) (hphi : Loc.Smooth A.fn A.blocks (Lower.own A.fn))
    (hp : ∀ b ∈ A.res.blocks, ∀ i ∈ b.insns, Emit.Plain i) (hout : A.res.code.length ≤ 32768) (M N : Bpf.World) (hM : Alike M N) (σ μ : Bpf.St) (hs : StartAlike σ μ) :
    Rewrites M P σ N A.res.code μ (fun σ μ => μ.mem = σ.mem ∧ μ.trace.map cut = σ.trace.map cut) ∨ (ZeroDivides M P σ ∧ ∃ m μ', Bpf.run N A.res.code m 0 μ = .done 1 μ') :=
  C74_bytecode_partial h hno e hn hoff (guarded_usual h hT e hn).1 hone hphi hp hout M N hM σ μ hs

/-- **C70** with the conditions on the frame pointer on the program: the program accesses its stack through `r10` inside of the 512 bytes that it has, and the stack is moved by at most 32256 bytes. -/
theorem C70_typed_partial {P : List Slot} (h : Fair P) {T : Nat → Nat → Kind} (hT : Typed P T) (hB : FrameIn InStack P) {n fuel : Nat} {check : Bool} {A : GuardedRun}
    (e : autorunGuards n fuel check P = .ok A) (hn : NoLabels A.reach A.lifted) (hdep : -32256 ≤ A.res.depth.toInt) (hreg : Compile.Regular A.fn A.blocks A.res) (hoff : -2 ^ 31 ≤ A.res.al.off)
    (hp : ∀ b ∈ A.res.blocks, ∀ i ∈ b.insns, Emit.Plain i) (hout : A.res.code.length ≤ 32768) (M N : Bpf.World) (W : IR.World) (hM : Lift.Agree M W) (p : BitVec 64)
    (hN : Flatten.Serves A.res.out.f A.blocks A.res.out.pos p N W) (hwid : ∀ a, InBody A.res.al.s.f a → A.res.al.s.f.insn a = Edit.mkAlloc .t64 → W.wid a = 8) (σ μ : Bpf.St)
    (hb : Enters p (A.res.depth.signExtend 64) (Flatten.InFrame A.res.out.f A.blocks A.res.out.pos p) σ μ)
    (hs : Flatten.Sane W A.res.out.f A.blocks A.res.out.pos p (Compile.startAt A.res.out.f A.blocks A.res.out.pos p (initial σ) μ)) :
    Rewrites M P σ N A.res.code μ (SameOutside (Flatten.InFrame A.res.out.f A.blocks A.res.out.pos p)) ∨ (ZeroDivides M P σ ∧ ∃ m μ', Bpf.run N A.res.code m 0 μ = .done 1 μ') := by
  obtain ⟨h1, D, h2⟩ := guarded_held h hT hB e hn
  exact C70_bytecode_partial h.shaped h.closed h.len h.usual h.clean e hn (fun x hx => by rw [h1]; exact form_depth (h2 x hx).1 hdep) hreg hoff hp hout M N W hM p hN hwid σ μ hb hs

/-! ## The hypotheses hold for a program that stores to its stack and divides -/

/-- `*(u64 *)(r10 - 8) = r1; r2 = r10; r2 += -8; r3 = *(u64 *)(r2 + 0); r0 = 100; r0 /= r3; exit`. -/
def exStackDiv : List Slot := [⟨0x7b, 10, 1, 0xfff8, 0⟩, ⟨0xbf, 2, 10, 0, 0⟩, ⟨0x07, 2, 0, 0, 0xfffffff8⟩, ⟨0x79, 3, 2, 0, 0⟩, ⟨0xb7, 0, 0, 0, 100⟩, ⟨0x3f, 0, 3, 0, 0⟩, ⟨0x95, 0, 0, 0, 0⟩]

def exStackKinds : List (List Kind) := [[], [], [.any, .any, .frame], [.any, .any, .addr], [], [], []]

theorem exStackDiv_typed : Fair exStackDiv ∧ Typed exStackDiv (kindsOf exStackKinds) := ⟨fair_of_check (by decide +kernel), typed_of_check (by decide +kernel)⟩

example : ∃ A, autorunGuards 100 100 true exStackDiv = .ok A ∧ NoLabels A.reach A.lifted ∧ Formed A.res.code ∧ Closed A.res.code ∧ (∀ p < A.res.code.length, SlotReach A.res.code p) ∧
    7 < A.res.code.length := by
  have h : Cg.onOk (autorunGuards 100 100 true exStackDiv) (fun A => noLabelsB A.reach A.lifted && (decide (A.res.code.length ≤ 32768) && decide (7 < A.res.code.length))) = true := by decide +kernel
  obtain ⟨A, e, h⟩ := Cg.of_onOk h
  simp only [Bool.and_eq_true, decide_eq_true_eq] at h
  obtain ⟨h1, h2⟩ := exStackDiv_typed
  have hn := noLabels_of_check h.1
  have k := C80_typed_guarded_partial h1 h2 e hn h.2.1
  exact ⟨A, e, hn, k.1, k.2, C81_typed_guarded_partial h1 h2 e hn h.2.1, h.2.2⟩

example : (Lift.lift 100 exStackDiv).isOk = true ∧ Cg.onOk (early 100 100 true exStackDiv) (fun s => noLabelsB s.2 s.1) = true := ⟨by decide +kernel, by decide +kernel⟩

/-- On the same machine and from any state. -/
example : ∃ A, autorunGuards 100 100 true exOver = .ok A ∧ ∀ σ,
    Rewrites Flatten.exM exOver σ Flatten.exM A.res.code σ (fun σ μ => μ.mem = σ.mem ∧ μ.trace.map cut = σ.trace.map cut) ∨
    (ZeroDivides Flatten.exM exOver σ ∧ ∃ m μ', Bpf.run Flatten.exM A.res.code m 0 σ = .done 1 μ') := by
  have h : Cg.onOk (autorunGuards 100 100 true exOver) (fun A => noLabelsB A.reach A.lifted && fitB A.toRun) = true := by decide +kernel
  obtain ⟨A, e, h⟩ := Cg.of_onOk h
  simp only [fitB, Bool.and_eq_true, decide_eq_true_eq] at h
  obtain ⟨h0, ⟨⟨⟨⟨h1, h2⟩, h3⟩, h4⟩, h5⟩, h6⟩ := h
  exact ⟨A, e, fun σ => C74_typed_partial (fair_of_check (by decide +kernel)) (typed_of_check (K := []) (by decide +kernel)) (stale_of_check (K := [[], [], [], [], []]) (by decide +kernel)) e
    (noLabels_of_check h0) h1 (Fit.one_of_check h3) (Fit.smooth_of_check h4)
    (fun b hb i hi => Emit.plain_of_check (List.all_eq_true.1 (List.all_eq_true.1 h5 b hb) i hi)) h6 _ _ exM_alike σ σ ⟨rfl, fun _ _ _ => rfl, rfl, rfl⟩⟩

/-- With a frame, for the program that divides 13 by 5. -/
example : ∃ A, autorunGuards 100 100 true exDivide = .ok A ∧
    (Rewrites keepM exDivide (entry (A.res.depth.signExtend 64)) Flatten.exM A.res.code (entry 0) (SameOutside (Flatten.InFrame A.res.out.f A.blocks A.res.out.pos Compile.compP)) ∨
      (ZeroDivides keepM exDivide (entry (A.res.depth.signExtend 64)) ∧ ∃ m μ', Bpf.run Flatten.exM A.res.code m 0 (entry 0) = .done 1 μ')) := by
  have h : Cg.onOk (autorunGuards 100 100 true exDivide) (fun A => noLabelsB A.reach A.lifted && (runB A.toRun && decide (-32256 ≤ A.res.depth.toInt))) = true := by decide +kernel
  obtain ⟨A, e, h⟩ := Cg.of_onOk h
  simp only [runB, Bool.and_eq_true, decide_eq_true_eq] at h
  obtain ⟨h0, ⟨⟨⟨⟨⟨⟨⟨h1, h2⟩, h3⟩, h4⟩, h5⟩, h6⟩, h7⟩, h8⟩, h9⟩ := h
  have hP : Fair exDivide := fair_of_check (by decide +kernel)
  have hn := noLabels_of_check h0
  have hform : ∀ x, InBody A.opt x → Form A.opt.sp A.res.depth .plain (A.opt.insn x) := by
    rintro x ⟨b, hb, hx⟩
    exact plain_of_check (List.all_eq_true.1 (List.all_eq_true.1 h1 b hb) x hx)
  obtain ⟨p1, p2, -, -, -, ep, ec⟩ := guarded_parts hP.shaped hP.closed hP.len hP.usual hP.clean e hn
  obtain ⟨-, hm, lR, hno, hF, -⟩ := marked_of p1 p2 ep hform
  have hreg := Compile.regular_of_check ec (hm.ready lR hno) (hm.neat lR) (hm.fits lR hF) (fun b hb x hx ho => absurd ho (hm.plain (.inr (.inr ⟨b, (lR.mem b).1 hb, hx⟩))).2) hm.graph h2
  exact ⟨A, e, C70_typed_partial hP (typed_of_check (K := []) (by decide +kernel)) (inStack_of_check (by decide +kernel)) e hn h9 hreg h3
    (fun b hb i hi => Emit.plain_of_check (List.all_eq_true.1 (List.all_eq_true.1 h4 b hb) i hi)) h5 _ _ _ (keep_agree A.res) Compile.compP (Compile.serves_of _ h6) (fun _ _ _ => rfl) _ _
    (entry_enters _ _) (Flatten.sane_of_check 60 h7 (Flatten.of_doneB h8))⟩

end Verif.Pipe
