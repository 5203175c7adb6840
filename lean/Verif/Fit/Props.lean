import Verif.Fit.Fits
/-!
# C73: functions that fit in the registers
-/
namespace Verif.Fit
open Verif Verif.IR Verif.Edit Verif.Cg Verif.Loc Verif.Compile
open Verif.Lower (Ready Neat own)
open Verif.Norm (VrPos Reg Op)
open Verif.Flatten (graphOf lastOf Serves Sane cut InFrame)

/-- C73 (first part): if code generation succeeds without spilling anything, the choices of the register allocator are regular, whatever it has chosen:
conflicting values are in different registers, machine registers are read before they are given away, and the copies for phis overwrite nothing that is needed.  This
holds of functions without variables, arrays and copies of values (`Simple`: what the lifter makes of bytecode has none), with at most one argument that is used (`OneArg`: programs of the
kernel get one argument) and without the hazards of phis (`PhiSafe`). -/
theorem C73_regular {f : Fn} {R : List Nat} {r : Result} (e : compile f R = .ok r) (hr : Ready f R) (hn : Neat f R) (hF : Fits f R r.depth) (hg : Graph f) (hconn : ∀ b ∈ R, Conn f b)
    (hS : Simple f R) (hone : OneArg f) (hphi : PhiSafe f R (own f)) (hoff : r.al.off = 0) : Regular f R r :=
  (regular e hr hn hF hg hconn hS hone hphi hoff).1

/-- The surroundings of the machine and of the function when there are no slots. -/
structure Serves0 (M : Bpf.World) (W : World) : Prop where
  ldimm : W.bpf.ldimm = M.ldimm
  ret : ∀ tr fid (as : List (BitVec 64)) m, as.length = 5 → (M.call tr fid as m).ret = (W.bpf.call (tr.map cut) fid (as.take (Lift.arity fid)) m).ret
  clob : ∀ tr fid (as : List (BitVec 64)) m, as.length = 5 → ∀ k, (M.call tr fid as m).clob k = (W.bpf.call (tr.map cut) fid (as.take (Lift.arity fid)) m).clob k
  mem : ∀ tr fid (as : List (BitVec 64)) m, as.length = 5 → (M.call tr fid as m).mem = (W.bpf.call (tr.map cut) fid (as.take (Lift.arity fid)) m).mem

theorem frameless {f : Fn} {R : List Nat} {pos : Nat → VrPos} (h : ∀ y, Flatten.Names f R y → (pos y).spilled = 0 ∧ (f.insn y).op ≠ .alloc ∧ (f.insn y).op ≠ .allocarray) (p a : BitVec 64) :
    ¬ InFrame f R pos p a := fun ⟨y, ⟨h1, _, h2⟩, _⟩ => h2.2 (h y h1).1

theorem serves0 {f : Fn} {R : List Nat} {pos : Nat → VrPos} (h : ∀ y, Flatten.Names f R y → (pos y).spilled = 0 ∧ (f.insn y).op ≠ .alloc ∧ (f.insn y).op ≠ .allocarray) {M : Bpf.World} {W : World}
    (hW : Serves0 M W) (p : BitVec 64) : Serves f R pos p M W := by
  have hfr := frameless h p
  have same : ∀ {m m' : Bpf.Mem}, (∀ a, ¬ InFrame f R pos p a → m' a = m a) → m' = m := fun h => funext fun a => h a (hfr a)
  exact ⟨fun y hy ho => absurd ho (h y hy).2.2, fun y hy ho => absurd ho (h y hy).2.1, hW.ldimm, fun tr fid as m m' hl he => by rw [same he]; exact hW.ret tr fid as m hl,
    fun tr fid as m m' hl he k => by rw [same he]; exact hW.clob tr fid as m hl k, fun tr fid as m m' hl he a _ => by rw [same he, hW.mem tr fid as m hl],
    fun tr fid as m a ha => absurd ha (hfr a)⟩

/-- **C73** (partial): if code generation succeeds without spilling anything, the bytecode does what the SSA function does, with the same memory: no hypothesis about the choices of the register
allocator is left (compare C57).  Missing: functions with variables, arrays, copies, more than one argument that is used (`C57_violated_args`), or the hazards of phis (`C57_violated_lost`,
`C57_violated_swap`); operand patterns that are not translated faithfully (C10-C14), some of which depend on the registers chosen. -/
theorem C73_codegen_partial {f : Fn} {R : List Nat} {N fuel : Nat} {r : Result} (e : compile f R = .ok r) (hoff : r.al.off = 0) (hr : Ready f R) (hn : Neat f R) (hF : Fits f R 0)
    (hS : Simple f R) (hone : OneArg f) (hphi : PhiSafe f R (own f))
    (hg : Graph f) (hconn : ∀ b ∈ R, Conn f b) (hw : Layout.WF (graphOf f) f.entry N) (hl : Layout.layout (graphOf f) fuel f.entry = some (.ok R))
    (hcond : ∀ b ∈ R, ∀ t e, lastOf f b = .cond t e → f.succs b = [t, e]) (hp : ∀ b ∈ r.blocks, ∀ i ∈ b.insns, Emit.Plain i) (hlen : r.code.length ≤ 32768)
    (W : World) (M : Bpf.World) (p : BitVec 64) (σ : IR.St) (μ : Bpf.St) (hW : Serves0 M W) (hwid : ∀ a, W.wid a = 8) (hb : Begins f p 0 (fun _ => False) σ μ) :
    Implements W f σ M r.code μ (fun σ μ => μ.mem = σ.mem ∧ μ.trace.map cut = σ.trace) := by
  have hd : r.depth = 0 := by unfold Result.depth; rw [hoff]; rfl
  have hF' : Fits f R r.depth := by rw [hd]; exact hF
  obtain ⟨hreg, hq⟩ := regular e hr hn hF' hg hconn hS hone hphi hoff
  have hfr := frameless hq p
  have h := C57_codegen_partial e hr hn hF' (fun b hb x hx h => absurd h (hS.array b hb x hx)) hg hconn hw hl hcond hreg (by rw [hoff]; decide) hp hlen W M p σ μ (serves0 hq hW p)
    (fun a _ _ => hwid a) ⟨hb.r10, by rw [hd]; exact hb.sp, hb.args, fun a _ => hb.mem a fun h => h, hb.trace⟩ (fun _ _ _ _ _ _ _ _ _ _ _ _ _ => hfr _)
  have weak : ∀ {σ μ}, SameEffect r.out.f R r.out.pos p σ μ → μ.mem = σ.mem ∧ μ.trace.map cut = σ.trace := fun h => ⟨funext fun a => h.1 a (hfr a), h.2⟩
  refine ⟨fun n x σ' e => ?_, h.forever, fun m x μ' e => ?_⟩
  · obtain ⟨m, μ', h1, h2⟩ := h.returns n x σ' e
    exact ⟨m, μ', h1, weak h2⟩
  · rcases h.only m x μ' e with ⟨n, σ', h1, h2⟩ | h1
    · exact .inl ⟨n, σ', h1, weak h2⟩
    · exact .inr h1

end Verif.Fit
