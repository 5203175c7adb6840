import Verif.Pipe.FitProps
import Verif.Pipe.GuardedProps
/-!
# C74: runs with guarded divisions that spill nothing
-/
namespace Verif.Pipe
open Verif Verif.IR
open Verif.Bpf (Slot Instr decode ReadsStale Helps)
open Verif.Flatten (cut InFrame)
open Verif.Compile (startAt Regular)
open Verif.Loc (Smooth)
open Verif.Lower (own)
open Verif.Fit (OneArg)

/-- **C74** (partial): when a run with `div_by_zero` turned on succeeds and spills nothing, the bytecode it hands on does what the bytecode it was given does, with the same memory everywhere, if no
guarded division gets a divisor of zero; if one does, it returns 1.  Nothing is assumed about the registers that were chosen (C73), helpers may leave what they like in r1 to r5 (C62).

Missing: what is missing of C70 (`NoLabels`, `C70_violated_phi`; divisions that are not guarded) and of C73 (`Smooth`, `OneArg`, other uses of r10, patterns that are translated wrongly). -/
theorem C74_guarded_partial {P : List Slot} (h : Fair P) (hno : ¬ ReadsStale P) {n fuel : Nat} {check : Bool} {A : GuardedRun} (e : autorunGuards n fuel check P = .ok A)
    (hn : NoLabels A.reach A.lifted) (hoff : A.res.al.off = 0)
    (hform : ∀ x, InBody A.opt x → Stack.Form A.opt.sp 0 .plain (A.opt.insn x)) (hone : OneArg A.fn) (hphi : Smooth A.fn A.blocks (own A.fn))
    (hp : ∀ b ∈ A.res.blocks, ∀ i ∈ b.insns, Emit.Plain i) (hout : A.res.code.length ≤ 32768)
    (M N : Bpf.World) (hM : Alike M N) (σ μ : Bpf.St) (hs : StartAlike σ μ) :
    (¬ DividesByZero A.reach (around N) A.lifted (initial σ) → Rewrites M P σ N A.res.code μ (fun σ μ => μ.mem = σ.mem ∧ μ.trace.map cut = σ.trace.map cut)) ∧
    (DividesByZero A.reach (around N) A.lifted (initial σ) → ∃ m μ', Bpf.run N A.res.code m 0 μ = .done 1 μ') := by
  have hd : A.res.depth = 0 := by unfold Compile.Result.depth; rw [hoff]; rfl
  have hform' : ∀ x, InBody A.opt x → Stack.Form A.opt.sp A.res.depth .plain (A.opt.insn x) := by rw [hd]; exact hform
  obtain ⟨p1, p2, -, -, -, ep, ec⟩ := guarded_parts h.shaped h.closed h.len h.usual h.clean e hn
  obtain ⟨-, hm, lR, h6, hF, -⟩ := marked_of p1 p2 ep hform'
  obtain ⟨hreg, hq⟩ := Fit.regular ec (hm.ready lR h6) (hm.neat lR) (hm.fits lR hF) hm.graph (fun b hb => hm.conn b ((lR.mem b).1 hb)) (hm.simple lR) hone (hm.phiSafe lR hphi) hoff
  have hfr := Fit.frameless hq (μ.reg 10)
  obtain ⟨c1, c2⟩ := C70_guarded_run_partial h.shaped h.closed h.len h.usual h.clean e hn hform' hreg (by rw [hoff]; decide) hp hout (keeps M) N (around N) (keeps_agree hM.helps) (μ.reg 10)
    (Fit.serves0 hq hM.serves _) (fun _ _ _ => rfl) σ μ
    ⟨rfl, by rw [hd, ← hs.fp]; simp, hs.args, fun a _ => by rw [hs.mem], hs.trace⟩ (fun _ _ _ _ _ _ _ _ _ _ _ _ _ => hfr _)
  refine ⟨fun hz => ?_, c2⟩
  have hR := (c1 hz).spoil h.shaped.legal hno hM.helps
  have weak : ∀ {σ μ' : Bpf.St}, SameOutside (InFrame A.res.out.f A.blocks A.res.out.pos (μ.reg 10)) σ μ' → μ'.mem = σ.mem ∧ μ'.trace.map cut = σ.trace.map cut :=
    fun h => ⟨funext fun a => h.1 a (hfr a), h.2⟩
  refine ⟨fun n x σ' e => ?_, hR.forever, fun m x μ' e => ?_⟩
  · obtain ⟨m, μ', h1, h2⟩ := hR.returns n x σ' e
    exact ⟨m, μ', h1, weak h2⟩
  · rcases hR.only m x μ' e with ⟨n, σ', h1, h2⟩ | h1
    · exact .inl ⟨n, σ', h1, weak h2⟩
    · exact .inr h1

theorem zero_spoil {P : List Slot} (hl : Bpf.Legal P) (hno : ¬ ReadsStale P) {M : Bpf.World} {W : IR.World} (hW : Helps M W) {σ : Bpf.St} (h : ZeroDivides (keeps M) P σ) : ZeroDivides M P σ := by
  obtain ⟨n, p, μ, s, w, d, src, e, hs, hd, hz⟩ := h
  have hn := run_near hl hno hW n (near_start P σ)
  rw [e] at hn
  generalize hr : Bpf.run M P n 0 σ = r at hn
  cases hn with
  | goto _ σ' _ h =>
    refine ⟨n, p, σ', s, w, d, src, hr, hs, hd, ?_⟩
    cases src with
    | imm c => exact hz
    | reg r =>
      rcases (h.reg p rfl (List.getElem?_eq_some_iff.1 hs).1).2 r.toNat with e | e
      · exact e.trans hz
      · exact absurd ⟨p, s, _, r.toNat, hs, hd, by simp [Bpf.reads, Bpf.Src.regs], e⟩ hno

theorem stuck_spoil {P : List Slot} (hl : Bpf.Legal P) (hno : ¬ ReadsStale P) {M : Bpf.World} {W : IR.World} (hW : Helps M W) {σ : Bpf.St} (h : ∃ n, Bpf.run (keeps M) P n 0 σ = .stuck) :
    ∃ n, Bpf.run M P n 0 σ = .stuck := by
  obtain ⟨n, e⟩ := h
  have hn := run_near hl hno hW n (near_start P σ)
  rw [e] at hn
  generalize hr : Bpf.run M P n 0 σ = r at hn
  cases hn
  exact ⟨n, hr⟩

/-- **C74** (partial), said of the two programs only: the bytecode that is handed on does what the bytecode that was given does, with the same memory everywhere, or this gets to a division by a
register that holds zero and the other returns 1.  In particular the two do the same whenever the program that was given divides by no zero.  Conditions, and what is missing, as above. -/
theorem C74_bytecode_partial {P : List Slot} (h : Fair P) (hno : ¬ ReadsStale P) {n fuel : Nat} {check : Bool} {A : GuardedRun} (e : autorunGuards n fuel check P = .ok A)
    (hn : NoLabels A.reach A.lifted) (hoff : A.res.al.off = 0)
    (hform : ∀ x, InBody A.opt x → Stack.Form A.opt.sp 0 .plain (A.opt.insn x)) (hone : OneArg A.fn) (hphi : Smooth A.fn A.blocks (own A.fn))
    (hp : ∀ b ∈ A.res.blocks, ∀ i ∈ b.insns, Emit.Plain i) (hout : A.res.code.length ≤ 32768)
    (M N : Bpf.World) (hM : Alike M N) (σ μ : Bpf.St) (hs : StartAlike σ μ) :
    Rewrites M P σ N A.res.code μ (fun σ μ => μ.mem = σ.mem ∧ μ.trace.map cut = σ.trace.map cut) ∨
    (ZeroDivides M P σ ∧ ∃ m μ', Bpf.run N A.res.code m 0 μ = .done 1 μ') := by
  obtain ⟨h1, h2⟩ := C74_guarded_partial h hno e hn hoff hform hone hphi hp hout M N hM σ μ hs
  obtain ⟨-, -, -, -, hl, -, -⟩ := guarded_parts h.shaped h.closed h.len h.usual h.clean e hn
  by_cases hz : DividesByZero A.reach (around N) A.lifted (initial σ)
  · rcases ((hl (keeps_agree hM.helps) (start_initial σ)).2 hz).2 with h3 | h3
    · exact .inr ⟨zero_spoil h.shaped.legal hno hM.helps h3, h2 hz⟩
    · exact .inl (rewrites_stuck (stuck_spoil h.shaped.legal hno hM.helps h3))
  · exact .inl (h1 hz)

/-! ## An example -/

/-- `r0 = 100; r0 += r1; r1 -= 5; r0 /= r1; exit` -/
def exOver : List Slot := [⟨0xb7, 0, 0, 0, 100⟩, ⟨0x0f, 0, 1, 0, 0⟩, ⟨0x17, 1, 0, 0, 5⟩, ⟨0x3f, 0, 1, 0, 0⟩, ⟨0x95, 0, 0, 0, 0⟩]

/-- The conditions hold for it, on the same machine and from any state. -/
theorem exOver_runs : ∃ A, autorunGuards 100 100 true exOver = .ok A ∧ ∀ σ,
    (¬ DividesByZero A.reach (around Flatten.exM) A.lifted (initial σ) → Rewrites Flatten.exM exOver σ Flatten.exM A.res.code σ (fun σ μ => μ.mem = σ.mem ∧ μ.trace.map cut = σ.trace.map cut)) ∧
    (DividesByZero A.reach (around Flatten.exM) A.lifted (initial σ) → ∃ m μ', Bpf.run Flatten.exM A.res.code m 0 σ = .done 1 μ') := by
  have h : Cg.onOk (autorunGuards 100 100 true exOver) (fun A => noLabelsB A.reach A.lifted && fitB A.toRun) = true := by decide +kernel
  obtain ⟨A, e, h⟩ := Cg.of_onOk h
  simp only [fitB, Bool.and_eq_true, decide_eq_true_eq] at h
  obtain ⟨h0, ⟨⟨⟨⟨h1, h2⟩, h3⟩, h4⟩, h5⟩, h6⟩ := h
  refine ⟨A, e, fun σ => ?_⟩
  exact C74_guarded_partial (fair_of_check (by decide +kernel)) (stale_of_check (K := [[], [], [], [], []]) (by decide +kernel)) e (noLabels_of_check h0) h1
    (fun x ⟨b, hb, hx⟩ => plain_of_check (List.all_eq_true.1 (List.all_eq_true.1 h2 b hb) x hx)) (Fit.one_of_check h3) (Fit.smooth_of_check h4)
    (fun b hb i hi => Emit.plain_of_check (List.all_eq_true.1 (List.all_eq_true.1 h5 b hb) i hi)) h6 _ _ exM_alike σ σ ⟨rfl, fun _ _ _ => rfl, rfl, rfl⟩

/-- And so it is for the two programs. -/
theorem exOver_bytecode : ∃ A, autorunGuards 100 100 true exOver = .ok A ∧ ∀ σ,
    Rewrites Flatten.exM exOver σ Flatten.exM A.res.code σ (fun σ μ => μ.mem = σ.mem ∧ μ.trace.map cut = σ.trace.map cut) ∨
    (ZeroDivides Flatten.exM exOver σ ∧ ∃ m μ', Bpf.run Flatten.exM A.res.code m 0 σ = .done 1 μ') := by
  have h : Cg.onOk (autorunGuards 100 100 true exOver) (fun A => noLabelsB A.reach A.lifted && fitB A.toRun) = true := by decide +kernel
  obtain ⟨A, e, h⟩ := Cg.of_onOk h
  simp only [fitB, Bool.and_eq_true, decide_eq_true_eq] at h
  obtain ⟨h0, ⟨⟨⟨⟨h1, h2⟩, h3⟩, h4⟩, h5⟩, h6⟩ := h
  refine ⟨A, e, fun σ => ?_⟩
  exact C74_bytecode_partial (fair_of_check (by decide +kernel)) (stale_of_check (K := [[], [], [], [], []]) (by decide +kernel)) e (noLabels_of_check h0) h1
    (fun x ⟨b, hb, hx⟩ => plain_of_check (List.all_eq_true.1 (List.all_eq_true.1 h2 b hb) x hx)) (Fit.one_of_check h3) (Fit.smooth_of_check h4)
    (fun b hb i hi => Emit.plain_of_check (List.all_eq_true.1 (List.all_eq_true.1 h5 b hb) i hi)) h6 _ _ exM_alike σ σ ⟨rfl, fun _ _ _ => rfl, rfl, rfl⟩

/-- Both happen: with 5 in r1 the divisor is zero, with 12 it is not. -/
def exOverAt (r1 : BitVec 64) : Option (BitVec 64 × Option (BitVec 64)) :=
  match autorunGuards 100 100 true exOver with
  | .ok A =>
    let σ : Bpf.St := ⟨fun r => if r = 1 then r1 else 0, fun _ => 0, []⟩
    match Bpf.run Flatten.exM A.res.code 200 0 σ, Bpf.run Flatten.exM exOver 200 0 σ with
    | .done v _, .done w _ => some (v, some w)
    | .done v _, _ => some (v, none)
    | _, _ => none
  | _ => none

example : exOverAt 5 = some (1, some 0) ∧ exOverAt 12 = some (16, some 16) := by decide +kernel

end Verif.Pipe
