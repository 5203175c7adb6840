import Verif.Pipe.ClobberProps
import Verif.Fit.Props
import Verif.Fit.Check
/-!
# C73: whole runs that spill nothing
-/
namespace Verif.Pipe
open Verif Verif.IR
open Verif.Bpf (Slot Instr decode ReadsStale Helps)
open Verif.Flatten (cut InFrame Serves Sane)
open Verif.Compile (startAt Regular)
open Verif.Loc (Smooth PhiSafe copiesAt phisOf_phi)
open Verif.Lower (own)
open Verif.Fit (OneArg Simple)

/-! ## Hypotheses about lifted functions -/

theorem Code.simple {f : Fn} (h : Code f) {R : List Nat} (hl : LaidOut f R) : Simple f R := by
  have key : ∀ b ∈ R, ∀ x ∈ f.body b, liftedOp (f.insn x).op := fun b hb x hx => (h.insn x ⟨b, (hl.mem b).1 hb, hx⟩).op
  refine ⟨fun b hb x hx e => ?_, fun b hb x hx => ⟨fun e => ?_, fun e => ?_, fun e => ?_⟩, fun b hb x hx e => ?_⟩ <;>
    (have := key b hb x hx; rw [e] at this; rcases this with k | k | k | k | k <;> cases k)

theorem Code.phiSafe {f : Fn} (h : Code f) {R : List Nat} (hl : LaidOut f R) (hs : Smooth f R (own f)) : PhiSafe f R (own f) := by
  have walk : ∀ {b}, Conn f b → b ∈ f.allBbs ∧ ∃ l, Walk f (b :: l) := fun {b} hb => by
    induction hb with
    | entry => exact ⟨h.entry, [], .entry⟩
    | @step a b _ hab ih =>
      obtain ⟨ha, l, hw⟩ := ih
      exact ⟨(h.graph.succs a ha).2 b hab, a :: l, .step a b l hw ((h.route a ha).edge hab)⟩
  refine ⟨hs.one, hs.lost, hs.jump, hs.swap, fun p hp c hc x hx => ?_, fun c hc x hx => ?_, fun p hp o ho e => ?_⟩
  · obtain ⟨hpa, l, hw⟩ := walk (h.conn p ((hl.mem p).1 hp))
    obtain ⟨v, hv⟩ := h.ssa.phiAll c x ((List.takeWhile_prefix _).subset hx) (phisOf_phi hx) p l hw ((h.route p hpa).edge hc)
    exact ⟨_, hv, rfl⟩
  · exact (h.insn x ⟨c, (hl.mem c).1 hc, (List.takeWhile_prefix _).subset hx⟩).once
  · obtain ⟨c, hc, hx, hv⟩ := Fit.mem_copiesAt.1 ho
    have hxb : o.1 ∈ f.body c := (List.takeWhile_prefix _).subset hx
    have := (h.insn o.1 ⟨c, (hl.mem c).1 hc, hxb⟩).vals o.2 (by
      unfold Edit.operands
      rw [if_pos (phisOf_phi hx)]
      exact List.mem_append_left _ (List.mem_append_right _ (List.mem_map.2 ⟨_, hv, rfl⟩)))
    rw [e] at this
    rcases this with ⟨k, c, k2⟩ | ⟨y, k2, _⟩ <;> cases k2

/-! ## Machines -/

/-- The helpers of the two machines do the same, and look only at the arguments they take; those of `N` leave the same in r1 to r5 then. -/
structure Alike (M N : Bpf.World) : Prop where
  ldimm : N.ldimm = M.ldimm
  call : ∀ tr tr' fid (as as' : List (BitVec 64)) m, as.length = 5 → as'.length = 5 → tr.map cut = tr'.map cut → as.take (Lift.arity fid) = as'.take (Lift.arity fid) →
    (M.call tr fid as m).ret = (N.call tr' fid as' m).ret ∧ (M.call tr fid as m).mem = (N.call tr' fid as' m).mem
  clob : ∀ tr tr' fid (as as' : List (BitVec 64)) m, as.length = 5 → as'.length = 5 → tr.map cut = tr'.map cut → as.take (Lift.arity fid) = as'.take (Lift.arity fid) →
    (N.call tr fid as m).clob = (N.call tr' fid as' m).clob

/-- Five arguments. -/
def pad (as : List (BitVec 64)) : List (BitVec 64) := as ++ List.replicate (5 - as.length) 0

theorem pad_take {as : List (BitVec 64)} (h : as.length = 5) (k : Nat) : (pad (as.take k)).length = 5 ∧ (pad (as.take k)).take k = as.take k := by
  unfold pad
  rw [List.length_append, List.length_replicate, List.length_take, List.take_append, List.take_take, Nat.min_self, List.length_take]
  refine ⟨by omega, ?_⟩
  by_cases hk : k ≤ 5
  · rw [show k - min k as.length = 0 by omega, List.take_zero, List.append_nil]
  · rw [show 5 - min k as.length = 0 by omega]
    simp

theorem cut_cut (tr : List Bpf.Event) : (tr.map cut).map cut = tr.map cut := by
  rw [List.map_map]
  refine List.map_congr_left fun e _ => ?_
  show Bpf.Event.mk e.fid ((e.args.take (Lift.arity e.fid)).take (Lift.arity e.fid)) = _
  rw [List.take_take, Nat.min_self]
  rfl

/-- The surroundings of the SSA function. -/
def around (N : Bpf.World) : IR.World := ⟨⟨N.ldimm, fun tr fid as m => N.call tr fid (pad as) m⟩, fun _ => 0, fun _ => 8⟩

theorem Alike.helps {M N : Bpf.World} (h : Alike M N) : Helps M (around N) := by
  refine ⟨h.ldimm, fun tr fid as m hl => ?_, fun tr fid as m hl => ?_⟩ <;> obtain ⟨h1, h2⟩ := pad_take hl (Lift.arity fid)
  · exact (h.call tr (tr.map cut) fid as _ m hl h1 (cut_cut tr).symm h2.symm).1
  · exact (h.call tr (tr.map cut) fid as _ m hl h1 (cut_cut tr).symm h2.symm).2

theorem Alike.serves {M N : Bpf.World} (h : Alike M N) : Fit.Serves0 N (around N) := by
  have key : ∀ tr fid (as : List (BitVec 64)) m, as.length = 5 → (N.call tr fid as m).ret = ((around N).bpf.call (tr.map cut) fid (as.take (Lift.arity fid)) m).ret ∧
      (N.call tr fid as m).mem = ((around N).bpf.call (tr.map cut) fid (as.take (Lift.arity fid)) m).mem := fun tr fid as m hl => by
    obtain ⟨h1, h2⟩ := pad_take hl (Lift.arity fid)
    obtain ⟨a1, a2⟩ := h.call tr tr fid as as m hl hl rfl rfl
    obtain ⟨b1, b2⟩ := h.call tr (tr.map cut) fid as _ m hl h1 (cut_cut tr).symm h2.symm
    exact ⟨a1.symm.trans b1, a2.symm.trans b2⟩
  refine ⟨rfl, fun tr fid as m hl => (key tr fid as m hl).1, fun tr fid as m hl k => ?_, fun tr fid as m hl => (key tr fid as m hl).2⟩
  obtain ⟨h1, h2⟩ := pad_take hl (Lift.arity fid)
  exact congrFun (h.clob tr (tr.map cut) fid as _ m hl h1 (cut_cut tr).symm h2.symm) k

/-! ## C73 -/

/-- The machines start alike: the same arguments, frame pointer and memory, the same calls so far. -/
structure StartAlike (σ μ : Bpf.St) : Prop where
  fp : μ.reg 10 = σ.reg 10
  args : ∀ r, 1 ≤ r → r ≤ 5 → μ.reg r = σ.reg r
  mem : μ.mem = σ.mem
  trace : μ.trace.map cut = σ.trace.map cut

/-- **C73** (partial): when a run without options succeeds and spills nothing, the bytecode it hands on does what the bytecode it was given does: it returns the same value, after the same
calls with the same arguments, with the same memory everywhere; it runs for ever if the original does; if it returns, so does the original (or the original is stuck).  Compared with C60 and C62,
nothing is assumed about the registers that were chosen, about helpers and a frame, or about the accesses of the program.

Missing: programs that use the frame pointer in other forms than `r10 + constant` and accesses at constant offsets from r10; more than one argument that is used (`C73_violated`); phis whose
copies disturb each other (`Smooth`; `C73_violated`); operands in patterns that are not translated faithfully (`Plain`, C10-C14); programs that are rejected or for
which something is spilled. -/
theorem C73_autorun_partial {P : List Slot} (h : Fair P) (hno : ¬ ReadsStale P) {n fuel : Nat} {check : Bool} {A : Run} (e : autorun n fuel check P = .ok A) (hoff : A.res.al.off = 0)
    (hform : ∀ x, InBody A.opt x → Stack.Form A.opt.sp 0 .plain (A.opt.insn x)) (hone : OneArg A.fn) (hphi : Smooth A.fn A.blocks (own A.fn))
    (hp : ∀ b ∈ A.res.blocks, ∀ i ∈ b.insns, Emit.Plain i) (hout : A.res.code.length ≤ 32768)
    (M N : Bpf.World) (hM : Alike M N) (σ μ : Bpf.St) (hs : StartAlike σ μ) :
    Rewrites M P σ N A.res.code μ (fun σ μ => μ.mem = σ.mem ∧ μ.trace.map cut = σ.trace.map cut) := by
  have hd : A.res.depth = 0 := by unfold Compile.Result.depth; rw [hoff]; rfl
  have hform' : ∀ x, InBody A.opt x → Stack.Form A.opt.sp A.res.depth .plain (A.opt.insn x) := by rw [hd]; exact hform
  obtain ⟨-, hm, lR, h6, hF, -, ec⟩ := autorun_marked h.shaped h.closed h.len h.usual h.clean e hform'
  obtain ⟨hreg, hq⟩ := Fit.regular ec (hm.ready lR h6) (hm.neat lR) (hm.fits lR hF) hm.graph (fun b hb => hm.conn b ((lR.mem b).1 hb)) (hm.simple lR) hone (hm.phiSafe lR hphi) hoff
  have hfr := Fit.frameless hq (μ.reg 10)
  have hR := C62_autorun_partial h hno e hform' hreg (by rw [hoff]; decide) hp hout M N (around N) hM.helps (μ.reg 10) (Fit.serves0 hq hM.serves _) (fun _ _ _ => rfl) σ μ
    ⟨rfl, by rw [hd, ← hs.fp]; simp, hs.args, fun a _ => by rw [hs.mem], hs.trace⟩ (fun _ _ _ _ _ _ _ _ _ _ _ _ _ => hfr _)
  have weak : ∀ {σ μ' : Bpf.St}, SameOutside (InFrame A.res.out.f A.blocks A.res.out.pos (μ.reg 10)) σ μ' → μ'.mem = σ.mem ∧ μ'.trace.map cut = σ.trace.map cut :=
    fun h => ⟨funext fun a => h.1 a (hfr a), h.2⟩
  refine ⟨fun n x σ' e => ?_, hR.forever, fun m x μ' e => ?_⟩
  · obtain ⟨m, μ', h1, h2⟩ := hR.returns n x σ' e
    exact ⟨m, μ', h1, weak h2⟩
  · rcases hR.only m x μ' e with ⟨n, σ', h1, h2⟩ | h1
    · exact .inl ⟨n, σ', h1, weak h2⟩
    · exact .inr h1

/-! ## An example, and what happens without the hypotheses -/

/-- What can be tested of the hypotheses. -/
def fitB (A : Run) : Bool :=
  decide (A.res.al.off = 0) && A.opt.allBbs.all (fun b => (A.opt.body b).all fun x => plainB A.opt.sp 0 (A.opt.insn x)) && Fit.oneB A.fn 1 && Fit.smoothIn A.fn A.blocks (own A.fn) 6 &&
  A.res.blocks.all (fun b => b.insns.all Emit.plainB) && decide (A.res.code.length ≤ 32768)

theorem exM_alike : Alike Flatten.exM Flatten.exM := by
  refine ⟨rfl, fun tr tr' fid as as' m _ _ _ h => ⟨?_, rfl⟩, fun _ _ _ _ _ _ _ _ _ _ => rfl⟩
  show (as.take (Lift.arity fid)).foldl (· + ·) 0 = (as'.take (Lift.arity fid)).foldl (· + ·) 0
  rw [h]

/-- The conditions hold for `exL`, a program with a loop and a call: on the same machine, from any state, the bytecode that a run makes of it does the same. -/
example : ∃ A, autorun 100 100 true Lift.exL = .ok A ∧ ∀ σ, Rewrites Flatten.exM Lift.exL σ Flatten.exM A.res.code σ (fun σ μ => μ.mem = σ.mem ∧ μ.trace.map cut = σ.trace.map cut) := by
  have h : Cg.onOk (autorun 100 100 true Lift.exL) fitB = true := by decide +kernel
  obtain ⟨A, e, h⟩ := Cg.of_onOk h
  simp only [fitB, Bool.and_eq_true, decide_eq_true_eq] at h
  obtain ⟨⟨⟨⟨⟨h1, h2⟩, h3⟩, h4⟩, h5⟩, h6⟩ := h
  refine ⟨A, e, fun σ => ?_⟩
  exact C73_autorun_partial (fair_of_check (by decide +kernel)) (stale_of_check (K := [[], [], [], [], [], [], [], [], [], [], [1, 2, 3, 4, 5]]) (by decide +kernel)) e h1
    (fun x ⟨b, hb, hx⟩ => plain_of_check (List.all_eq_true.1 (List.all_eq_true.1 h2 b hb) x hx)) (Fit.one_of_check h3) (Fit.smooth_of_check h4)
    (fun b hb i hi => Emit.plain_of_check (List.all_eq_true.1 (List.all_eq_true.1 h5 b hb) i hi)) h6 _ _ exM_alike σ σ ⟨rfl, fun _ _ _ => rfl, rfl, rfl⟩

/-- A run on `P` succeeds and spills nothing. -/
def fitsIn (P : List Slot) : Bool := Cg.onOk (autorun 100 100 true P) fun A => decide (A.res.al.off = 0)

/-- **C73** does not hold of all runs: the programs of `C60_violated_args`, `C60_violated_lost` and `C60_violated_swap` spill nothing. -/
theorem C73_violated : (fitsIn argp = true ∧ Broken argp) ∧ (fitsIn fib = true ∧ Broken fib) ∧ (fitsIn swp = true ∧ Broken swp) :=
  ⟨⟨by decide +kernel, C60_violated_args.2.2⟩, ⟨by decide +kernel, C60_violated_lost.2.2⟩, ⟨by decide +kernel, C60_violated_swap.2.2⟩⟩

end Verif.Pipe
