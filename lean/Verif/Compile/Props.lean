import Verif.Compile.Loose
import Verif.Compile.Flows
/-!
# C57: code generation from SSA form to bytecode
-/
namespace Verif.Compile
open Verif Verif.IR Verif.Edit Verif.Cg Verif.Flatten
open Verif.Loc (Flow places placeOf virt hasResult RegsKept phisOf_append phisOf_phi)
open Verif.Loc (CopiesFit)
open Verif.Norm (VrPos Reg Op)
open Verif.Lower (Ready Neat Starts)

/-! ## The start -/

section
variable {g : Fn} {R : List Nat} {pos : Nat → VrPos} {p : BitVec 64} {σ : IR.St} {μ : Bpf.St}

theorem offsetAt_place {q : VrPos} (h : q.spilled ≠ 0) : offsetAt (placeOf q) = q.spilled ∧ ¬ placeOf q ≤ 10 ∧ placeOf q % 3 ≠ 1 := by
  unfold placeOf offsetAt
  rw [if_neg h]
  split
  · have : (11 + 3 * q.spilled.natAbs) % 3 = 2 := by omega
    rw [if_pos this]
    omega
  · have : (12 + 3 * q.spilled.natAbs) % 3 ≠ 2 := by omega
    rw [if_neg this]
    omega

theorem start_mirror {dst : Nat → Option Nat} {f : Fn} {d : BitVec 64} (h : Placed g R dst pos) (hb : Begins f p d (InFrame g R pos p) σ μ) :
    Mirror g R pos p (startAt g R pos p σ μ) μ := by
  refine ⟨hb.r10, fun r hr => ?_, fun y hy => ?_, fun y hy ho => ?_, hb.mem, hb.trace⟩
  · show _ = if r ≤ 10 then _ else _
    rw [if_pos hr]
  · obtain ⟨h1, h2, h3⟩ := offsetAt_place hy.2.2.2
    show _ = if _ then _ else if _ then _ else if _ then _ else _
    rw [if_neg h2, if_neg h3, if_neg, h1]
    · rfl
    · rw [h1]
      intro he
      obtain ⟨z, hz, he⟩ := List.any_eq_true.1 he
      simp only [Bool.and_eq_true, decide_eq_true_eq] at he
      exact h.clear y z hy (mem_namesL.1 hz) he.1 he.2.symm
  · obtain ⟨h1, h2, h3⟩ := offsetAt_place (h.arrays y hy ho).2
    show (if _ then _ else if _ then _ else if _ then _ else _) = _
    rw [if_neg h2, if_neg h3, if_pos, h1]
    · rfl
    · rw [h1]
      refine List.any_eq_true.2 ⟨y, mem_namesL.2 hy, ?_⟩
      simp [ho]

theorem start_starts {f : Fn} {d : BitVec 64} (h5 : f.args.length ≤ 5) (hb : Begins f p d (InFrame g R pos p) σ μ) :
    Starts f σ ((startAt g R pos p σ μ).set 10 (p + d)) := by
  refine ⟨fun i a ha => ?_, ?_, fun a _ => ?_, rfl, rfl⟩
  · have hi : i < f.args.length := (List.getElem?_eq_some_iff.1 ha).1
    show (if i + 1 = 10 then _ else if i + 1 ≤ 10 then _ else _) = _
    rw [if_neg (by omega), if_pos (by omega)]
    exact hb.args i a ha
  · exact hb.sp.symm
  · show (if virt a = 10 then _ else if virt a ≤ 10 then _ else if virt a % 3 = 1 then _ else _) = _
    have : virt a = 13 + 3 * a := rfl
    rw [if_neg (by omega), if_neg (by omega), if_pos (by omega)]
    congr 1
    omega

theorem start_moved {f : Fn} {d : BitVec 64} (hb : Begins f p d (InFrame g R pos p) σ μ) :
    Stack.MovedL d ((startAt g R pos p σ μ).set 10 (p + d)) (startAt g R pos p σ μ) := by
  refine ⟨fun q hq => ?_, ?_, rfl, rfl⟩
  · show _ = if q = 10 then _ else _
    rw [if_neg hq]
  · show p + d = μ.reg 10 + d
    rw [hb.r10]

end

/-! ## C57 -/

/-- The stack offset, as `add_stack_offset` sees it. -/
def Result.depth (r : Result) : BitVec 16 := BitVec.ofInt 16 r.al.off

/-- What is needed of the choices of the register allocator: conflicting values are in different registers in the end (`apart`,
which C35 gives and coalescing can destroy, `C37_violated`), a machine register that is still to be read is not given to a value that is written before (`regs`, `C52_violated`), and the copies
for phis do not overwrite what is needed (`phis`, see the violations of C39). -/
structure Regular (f : Fn) (R : List Nat) (r : Result) : Prop where
  apart : RA.Apart r.ra
  regs : RegsKept r.al.s.f R (places r.al.s.pos) (places (regPos r.ra))
  phis : CopiesFit r.shifted R (places (regPos r.ra))

theorem regsAre {s : Cg} {f : Fn} (h : s.f.sp = f.sp) : RegsAre s (rgOf f) (regInsn f) := fun r => by rw [h]; rfl

/-- **C57** (partial): if code generation succeeds (`compile`: lowering, the rounds of register allocation, colouring, coalescing, stack offsets, removal of phis, flattening,
normalisation, translation, relocation), the bytecode does what the SSA function does: it returns the same value, with the same calls of helpers with the same arguments and the same
memory outside of the slots of spilled values; it runs for ever if the function does, and if it returns, so does the function.
Missing: functions that are not `Ready`, `Neat` and `Fits` (calls with the wrong number of arguments, jumps to the entry, variables loaded before they are stored, the stack pointer in other
forms than `sp + constant` and accesses at constant offsets, throws); choices of the register allocator that are not `Regular`, which do occur (`C57_violated_args`, `C57_violated_lost`,
`C57_violated_swap`, `C57_violated_merged`); operand patterns that are not translated faithfully (C10-C14); graphs on which the layout goes wrong (C08); more than 32768 slots;
executions in which the program's own accesses touch the slots. -/
theorem C57_codegen_partial {f : Fn} {R : List Nat} {N fuel : Nat} {r : Result} (e : compile f R = .ok r) (hr : Ready f R) (hn : Neat f R) (hF : Fits f R r.depth)
    (ha : ∀ b ∈ R, ∀ x ∈ f.body b, (f.insn x).op = .allocarray → 0 < arrBytes (f.insn x) ∧ arrBytes (f.insn x) + 7 < 2 ^ 32)
    (hg : Graph f) (hconn : ∀ b ∈ R, Conn f b) (hw : Layout.WF (graphOf f) f.entry N) (hl : Layout.layout (graphOf f) fuel f.entry = some (.ok R))
    (hcond : ∀ b ∈ R, ∀ t e, lastOf f b = .cond t e → f.succs b = [t, e])
    (hreg : Regular f R r) (hoff : -2 ^ 31 ≤ r.al.off) (hp : ∀ b ∈ r.blocks, ∀ i ∈ b.insns, Emit.Plain i) (hlen : r.code.length ≤ 32768)
    (W : World) (M : Bpf.World) (p : BitVec 64) (σ : IR.St) (μ : Bpf.St) (hW : Serves r.out.f R r.out.pos p M W)
    (hwid : ∀ a, InBody r.al.s.f a → r.al.s.f.insn a = mkAlloc .t64 → W.wid a = 8)
    (hb : Begins f p (r.depth.signExtend 64) (InFrame r.out.f R r.out.pos p) σ μ)
    (hs : Sane W r.out.f R r.out.pos p (startAt r.out.f R r.out.pos p σ μ)) :
    Implements W f σ M r.code μ (SameEffect r.out.f R r.out.pos p) := by
  unfold compile at e
  obtain ⟨⟨s0, off0⟩, e1, e⟩ := Out.bind_eq_ok.1 e
  obtain ⟨al, e2, e⟩ := Out.bind_eq_ok.1 e
  obtain ⟨c, e3, e⟩ := Out.bind_eq_ok.1 e
  obtain ⟨m, e4, e⟩ := Out.bind_eq_ok.1 e
  obtain ⟨t, e5, e⟩ := Out.bind_eq_ok.1 e
  obtain ⟨bs, e6, e⟩ := Out.bind_eq_ok.1 e
  obtain ⟨code, e7, e⟩ := Out.bind_eq_ok.1 e
  cases e
  dsimp only [Result.depth, Result.shifted] at *
  generalize hd : BitVec.ofInt 16 al.off = d at *
  have hH := prepare_holds hr hn hF ha e1
  have hFr := prepare_frame hr hn hF ha e1
  have hRo := allocate_ok hr.nodup 6 s0 off0 al hH e2
  have hFr2 := hFr.trans hRo.frame
  obtain ⟨hS, hkeep⟩ := colored_ok hRo (hFr.graph hg) (fun b hb => hFr.conn (hconn b hb)) e3 e4 (allocated_fixed hr hn hF ha e1 hRo) hreg.apart
  have hA := hRo.holds
  have hRA := regsAre (s := al.s) hFr2.sp
  have hG := hA.gone hr.nodup hS hRA e5
  have hPl := hA.placed hS hRA hG hoff
  have hfl0 := flow_shift d hA.ready.flow
  have hfl := inv_flow hG.inv hA.ready.sub hfl0
  -- the chain of executions
  obtain ⟨s1, off1, f1, -, f2⟩ := C54_front_partial hr hn ha
  rw [e1] at f1
  cases f1
  obtain ⟨vss, hch, hrr⟩ := hRo.run
  obtain ⟨s2, off2, f3, -, f4⟩ := f2 vss hch
  rw [hrr] at f3
  cases f3
  have k1 := f4 W σ _ (start_starts hr.five hb) hwid
  have k2 := hkeep hreg.regs W ((startAt t.f R t.pos p σ μ).set 10 (p + d.signExtend 64))
  have k3 := Stack.C38_places_partial W hA.ready.flow (l := places (regPos m)) (d := d) (by
    rw [Loc.places_alloc (by rw [hS.sp hA])]
    rw [hS.sp hA]
    rfl) (fun b hb x hx => ⟨hS.oneSp hA ⟨b, hb, hx⟩, (hA.shape.insn x ⟨b, hb, hx⟩).form⟩)
  have hphi := hA.phiReady (d := d) hr.nodup hS hRA
  obtain ⟨t', f5, -, -, -, k4⟩ := RemPhi.C39_copies_partial hphi hfl0 (by rw [← hd]; exact hreg.phis) (dst := dst (Stack.shift d al.s.f)) (fun b hb x hx => by
    have ho : (al.s.f.insn x).op = .phi := by
      have := phisOf_phi hx
      rw [(Stack.shift_op d al.s.f x).1] at this
      exact this
    have hxb : x ∈ al.s.f.body b := by
      have h2 : x ∈ (Stack.shift d al.s.f).body b := by rw [← phisOf_append (Stack.shift d al.s.f) b]; exact List.mem_append_left _ hx
      exact h2
    refine ⟨?_, hS.all x ⟨b, hb, hxb⟩ (by unfold ops; rw [ho]; rfl), ?_⟩
    · rw [dst_of_result, (Stack.shift_op d al.s.f x).1, ho]
      rfl
    · apply Classical.byContradiction
      intro hne
      have := (hS.stack hA hne).2.2
      unfold ops at this
      rw [ho] at this
      rcases this with h | h <;> cases h)
  rw [e5] at f5
  cases f5
  have k5 : Lower.Keeps W f t.f (places t.pos) σ (startAt t.f R t.pos p σ μ) :=
    lower_keeps_trans (lower_keeps_moved (lower_keeps_trans k1 k2) (fun n => k3 n _ _ (start_moved hb))) (k4 W _)
  have hent : t.f.entry = f.entry := hG.inv.entry.trans hFr2.entry
  have hsuc : t.f.succs = f.succs := hG.inv.succs.trans hFr2.succs
  have hj : SameJumps R f t.f := by
    refine hFr2.jumps.trans (SameJumps.trans ?_ (inv_jumps hG.inv hA.ready.sub hfl0))
    exact fun b hb => ⟨fun x hx _ => ⟨hx, Stack.shift_op d al.s.f x⟩, fun x hx _ => ⟨hx, Stack.shift_op d al.s.f x⟩⟩
  exact implements_of k5 hPl hfl (graphFor_of hsuc hr.flow hfl hj) (by rw [hent]; exact hw) (by rw [hent]; exact hl)
    (fun b hb t e hx => by rw [hsuc]; exact hcond b hb t e hx) e6 hp e7 hlen hW (start_mirror hPl hb) hs

end Verif.Compile
