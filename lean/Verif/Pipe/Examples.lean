import Verif.Pipe.RunProps
import Verif.Compile.Examples
/-!
# C59, C60: examples and violations
-/
namespace Verif.Pipe
open Verif Verif.IR
open Verif.Bpf (Slot decode WellShaped Closed)
open Verif.Flatten (InFrame Spilled exM spilledL namesL mem_spilledL saneB sane_of_check doneB of_doneB)
open Verif.Compile (regularB regular_of_check worldOf compP startAt serves_of)
open Verif.Lift (Clean exL)

/-- The helpers of `exM` (they return the sum of their arguments), but r1 to r5 are left alone. -/
def keepM : Bpf.World where
  ldimm _ v := v
  call _ fid as m := ⟨(as.take (Lift.arity fid)).foldl (· + ·) 0, m, fun k => as.getD (k - 1) 0⟩

theorem keep_agree (r : Compile.Result) : Lift.Agree keepM (worldOf r) := by
  refine ⟨rfl, fun tr fid args mem _ => ?_, fun _ _ _ _ _ => rfl, fun tr fid args mem k hl h1 h2 => ?_⟩
  · show ((args.take (Lift.arity fid)).take (Lift.arity fid)).foldl (· + ·) 0 = (args.take (Lift.arity fid)).foldl (· + ·) 0
    rw [List.take_take, Nat.min_self]
  · have : k - 1 < args.length := by omega
    simp only [keepM, List.getD, List.getElem?_eq_getElem this, Option.getD_some]

/-- r1 to r5 are 5, 12, 13, 14, 15; the frame pointer is `d` above 0x1000; memory is empty. -/
def entry (d : BitVec 64) : Bpf.St where
  reg r := if r = 10 then compP + d else if r = 1 then 5 else if r ≤ 5 then BitVec.ofNat 64 (10 + r) else 0
  mem _ := 0
  trace := []

theorem entry_enters (d : BitVec 64) (frame : BitVec 64 → Prop) : Enters compP d frame (entry d) (entry 0) := by
  refine ⟨by decide, rfl, fun r h1 h2 => ?_, fun _ _ => rfl, rfl⟩
  have : r ≠ 10 := by omega
  simp [entry, this]

/-- The conditions on the program. -/
structure Fair (P : List Slot) : Prop where
  shaped : WellShaped P
  closed : Closed P
  len : P.length ≤ 32768
  usual : ∀ sl ∈ P, ∀ i, decode sl = some i → Usual i
  clean : ∀ sl ∈ P, ∀ i, decode sl = some i → Clean i

/-- A test for them. -/
def fairB (P : List Slot) : Bool := Lift.wsB (P.length + 1) P && closedB P && decide (P.length ≤ 32768) &&
  P.all (fun s => match decode s with | some i => usualB i | none => true) && P.all (fun s => match decode s with | some i => Lift.cleanB i | none => true)

theorem fair_of_check {P : List Slot} (h : fairB P = true) : Fair P := by
  simp only [fairB, Bool.and_eq_true, decide_eq_true_eq] at h
  obtain ⟨⟨⟨⟨h1, h2⟩, h3⟩, h4⟩, h5⟩ := h
  exact ⟨Lift.wsB_sound h1, closedB_sound h2, h3, usual_all h4, Lift.clean_all h5⟩

/-- A test for `Form` with constants that are not marked. -/
def plainB (sp : Nat) (d : BitVec 16) (i : Insn) : Bool :=
  (decide (refs i sp = 0) && Stack.noHoleB i) ||
  (decide (i.op = .loadraw ∨ i.op = .storeraw) && decide (i.addr = .insn sp) && decide (i.addrKind = .rawoff) && i.vals.all (fun v => decide (v ≠ .insn sp)) &&
    decide (-32768 ≤ i.addrOff.toInt + d.toInt) && decide (i.addrOff.toInt + d.toInt < 32768)) ||
  (decide (i.op = .add) && decide (i.aluOp = .w64) && (match i.vals with | [.insn y, .const .plain _ _ _] => decide (y = sp) | _ => false))

theorem plain_of_check {sp : Nat} {d : BitVec 16} {i : Insn} (h : plainB sp d i = true) : Stack.Form sp d .plain i := by
  simp only [plainB, Bool.or_eq_true, Bool.and_eq_true, decide_eq_true_eq, List.all_eq_true] at h
  rcases h with (⟨h1, h2⟩ | ⟨⟨⟨⟨⟨h1, h2⟩, h3⟩, h4⟩, h5⟩, h6⟩) | ⟨⟨h1, h2⟩, h3⟩
  · exact .other h1 (Stack.noHole_of_check h2)
  · exact .access h1 h2 h3 h4 h5 h6
  · split at h3
    · rename_i y c ct b e
      have hy : y = sp := of_decide_eq_true h3
      exact .add c ct b h1 h2 (by rw [e, hy])
    · cases h3

/-! ## Examples -/

/-- The conditions of `C59_passes` hold for `exL`, a program with a loop. -/
example : Fair exL ∧ (Lift.lift 100 exL).isOk = true := ⟨fair_of_check (by decide +kernel), by decide +kernel⟩

/-- The number of instructions. -/
def size (s : Out (Fn × List Nat)) : Nat := match s with | .ok (f, R) => (R.flatMap f.body).length | _ => 0

/-- The passes remove one of its instructions. -/
example : size (lift 100 100 true exL) = 11 ∧ size (do let s ← lift 100 100 true exL; passes 100 true s) = 10 := by decide +kernel

/-- `r6 = r1; r7 = r2; r8 = r3; r9 = r4; *(u64 *)(r10 - 8) = r1; r1 = r6; r2 = r7; call 1; r0 += r6; r0 += r7; r0 += r8; r0 += r9; r0 += r5;`, then `ld`, then `r0 -= r1; exit`: five values
are used after the call, one is spilled. -/
def exS (ld : List Slot) : List Slot := [⟨0xbf, 6, 1, 0, 0⟩, ⟨0xbf, 7, 2, 0, 0⟩, ⟨0xbf, 8, 3, 0, 0⟩, ⟨0xbf, 9, 4, 0, 0⟩, ⟨0x7b, 10, 1, 65528, 0⟩, ⟨0xbf, 1, 6, 0, 0⟩, ⟨0xbf, 2, 7, 0, 0⟩,
  ⟨0x85, 0, 0, 0, 1⟩, ⟨0x0f, 0, 6, 0, 0⟩, ⟨0x0f, 0, 7, 0, 0⟩, ⟨0x0f, 0, 8, 0, 0⟩, ⟨0x0f, 0, 9, 0, 0⟩, ⟨0x0f, 0, 5, 0, 0⟩] ++ ld ++ [⟨0x1f, 0, 1, 0, 0⟩, ⟨0x95, 0, 0, 0, 0⟩]

/-- Loading what has been stored: `r1 = *(u64 *)(r10 - 8)`. -/
def exA : List Slot := exS [⟨0x79, 1, 10, 65528, 0⟩]

def startOf (A : Run) : Loc.St := startAt A.res.out.f A.blocks A.res.out.pos compP (initial (entry (A.res.depth.signExtend 64))) (entry 0)

/-- What can be tested of the hypotheses. -/
def runB (A : Run) : Bool :=
  A.opt.allBbs.all (fun b => (A.opt.body b).all fun x => plainB A.opt.sp A.res.depth (A.opt.insn x)) && regularB A.fn A.blocks A.res && decide (-2 ^ 31 ≤ A.res.al.off) &&
  A.res.blocks.all (fun b => b.insns.all Emit.plainB) && decide (A.res.code.length ≤ 32768) &&
  (namesL A.res.out.f A.blocks).all (fun y => decide ((A.res.out.f.insn y).op = .alloc → Flat.bytes (A.res.out.f.insn y).vrType = some 8)) &&
  (List.range 60).all (saneB (worldOf A.res) A.res.out.f A.blocks A.res.out.pos compP (startOf A)) &&
  doneB (Loc.runFn (worldOf A.res) A.res.out.f (Loc.places A.res.out.pos) 60 (startOf A))

/-- The conditions of the theorem hold for what passes the test. -/
theorem rewrites_conditions {P : List Slot} (hP : Fair P) {n fuel : Nat} {check : Bool} {A : Run} (e : autorun n fuel check P = .ok A) (h : runB A = true) :
    (∀ x, InBody A.opt x → Stack.Form A.opt.sp A.res.depth .plain (A.opt.insn x)) ∧ Compile.Regular A.fn A.blocks A.res ∧ -2 ^ 31 ≤ A.res.al.off ∧
    (∀ b ∈ A.res.blocks, ∀ i ∈ b.insns, Emit.Plain i) ∧ A.res.code.length ≤ 32768 ∧ Flatten.Serves A.res.out.f A.blocks A.res.out.pos compP exM (worldOf A.res) ∧
    Enters compP (A.res.depth.signExtend 64) (InFrame A.res.out.f A.blocks A.res.out.pos compP) (entry (A.res.depth.signExtend 64)) (entry 0) ∧
    Flatten.Sane (worldOf A.res) A.res.out.f A.blocks A.res.out.pos compP (startOf A) := by
  simp only [runB, Bool.and_eq_true, decide_eq_true_eq] at h
  obtain ⟨⟨⟨⟨⟨⟨⟨h1, h2⟩, h3⟩, h4⟩, h5⟩, h6⟩, h7⟩, h8⟩ := h
  have hform : ∀ x, InBody A.opt x → Stack.Form A.opt.sp A.res.depth .plain (A.opt.insn x) := by
    rintro x ⟨b, hb, hx⟩
    exact plain_of_check (List.all_eq_true.1 (List.all_eq_true.1 h1 b hb) x hx)
  obtain ⟨-, hm, lR, hno, hF, -, ec⟩ := autorun_marked hP.shaped hP.closed hP.len hP.usual hP.clean e hform
  have hreg := regular_of_check ec (hm.ready lR hno) (hm.neat lR) (hm.fits lR hF) (fun b hb x hx ho => absurd ho (hm.plain (.inr (.inr ⟨b, (lR.mem b).1 hb, hx⟩))).2) hm.graph h2
  exact ⟨hform, hreg, h3, fun b hb i hi => Emit.plain_of_check (List.all_eq_true.1 (List.all_eq_true.1 h4 b hb) i hi), h5, serves_of _ h6, entry_enters _ _, sane_of_check 60 h7 (of_doneB h8)⟩

/-- The theorem can be applied to what passes the test. -/
theorem rewrites_of_check {P : List Slot} (hP : Fair P) {n fuel : Nat} {check : Bool} {A : Run} (e : autorun n fuel check P = .ok A) (h : runB A = true) :
    Rewrites keepM P (entry (A.res.depth.signExtend 64)) exM A.res.code (entry 0) (SameOutside (InFrame A.res.out.f A.blocks A.res.out.pos compP)) := by
  obtain ⟨h1, h2, h3, h4, h5, h6, h7, h8⟩ := rewrites_conditions hP e h
  exact C60_autorun_partial hP.shaped hP.closed hP.len hP.usual hP.clean e h1 h2 h3 h4 h5 _ _ _ (keep_agree A.res) compP h6 (fun _ _ _ => rfl) _ _ h7 h8

/-- The hypotheses of `C60_autorun_partial` hold for `exA`, and a value is spilled. -/
theorem exA_rewrites : ∃ A, autorun 100 100 true exA = .ok A ∧ (∃ y, Spilled A.res.out.f A.blocks A.res.out.pos y) ∧
    Rewrites keepM exA (entry (A.res.depth.signExtend 64)) exM A.res.code (entry 0) (SameOutside (InFrame A.res.out.f A.blocks A.res.out.pos compP)) := by
  have h : Cg.onOk (autorun 100 100 true exA) (fun A => runB A && decide (spilledL A.res.out.f A.blocks A.res.out.pos ≠ [])) = true := by decide +kernel
  obtain ⟨A, e, h⟩ := Cg.of_onOk h
  rw [Bool.and_eq_true, decide_eq_true_eq] at h
  refine ⟨A, e, ?_, rewrites_of_check (fair_of_check (by decide +kernel)) e h.1⟩
  obtain ⟨y, l, e⟩ := List.exists_cons_of_ne_nil h.2
  exact ⟨y, mem_spilledL.1 (by rw [e]; exact List.mem_cons_self ..)⟩

/-- They hold for `exL`. -/
theorem exL_rewrites : ∃ A, autorun 100 100 true exL = .ok A ∧
    Rewrites keepM exL (entry (A.res.depth.signExtend 64)) exM A.res.code (entry 0) (SameOutside (InFrame A.res.out.f A.blocks A.res.out.pos compP)) := by
  have h : Cg.onOk (autorun 100 100 true exL) runB = true := by decide +kernel
  obtain ⟨A, e, h⟩ := Cg.of_onOk h
  exact ⟨A, e, rewrites_of_check (fair_of_check (by decide +kernel)) e h⟩

/-! ## Violations -/

/-- What a program returns, and what it returns after a run. -/
def both (P : List Slot) : Option (BitVec 64 × BitVec 64) :=
  match autorun 100 100 true P with
  | .ok A =>
    match Bpf.run keepM P 200 0 (entry (A.res.depth.signExtend 64)), Bpf.run exM A.res.code 200 0 (entry 0) with
    | .done v _, .done w _ => some (v, w)
    | _, _ => none
  | _ => none

/-- A run on `P` succeeds, and the bytecode it hands on does not do what `P` does although the machines start alike: it returns something else. -/
def Broken (P : List Slot) : Prop := ∃ A, autorun 100 100 true P = .ok A ∧
  (∀ frame, Enters compP (A.res.depth.signExtend 64) frame (entry (A.res.depth.signExtend 64)) (entry 0)) ∧
  ∀ E, ¬ Rewrites keepM P (entry (A.res.depth.signExtend 64)) exM A.res.code (entry 0) E

theorem broken {P : List Slot} {v w : BitVec 64} (h : both P = some (v, w)) (hne : v ≠ w) : Broken P := by
  unfold both at h
  split at h
  · rename_i A e
    refine ⟨A, e, fun frame => entry_enters _ _, fun E hR => ?_⟩
    split at h
    · rename_i x1 x2 v' σ' w' μ' e1 e2
      cases h
      obtain ⟨m, μ1, e3, -⟩ := hR.returns _ _ _ e1
      exact hne (bpf_done_unique e3 e2).1
    · cases h
  · cases h

/-- `r0 = 0; r2 = 1; do { r3 = r2; r2 += r0; r0 = r3; r1 += -1 } while (r1 != 0); exit`: the Fibonacci numbers. -/
def fib : List Slot := [⟨0xb7, 0, 0, 0, 0⟩, ⟨0xb7, 2, 0, 0, 1⟩, ⟨0xbf, 3, 2, 0, 0⟩, ⟨0x0f, 2, 0, 0, 0⟩, ⟨0xbf, 0, 3, 0, 0⟩, ⟨0x07, 1, 0, 0, 0xffffffff⟩, ⟨0x55, 1, 0, 65531, 0⟩, ⟨0x95, 0, 0, 0, 0⟩]

/-- **C60** does not hold of all runs: the value a variable of a loop had before the last round is lost when the loop is left (the copies for the phis are made before the jump). The program
returns the fifth Fibonacci number, the rewritten program the sixth. -/
theorem C60_violated_lost : Fair fib ∧ both fib = some (5, 8) ∧ Broken fib :=
  ⟨fair_of_check (by decide +kernel), by decide +kernel, broken (v := 5) (w := 8) (by decide +kernel) (by decide)⟩

/-- `r0 = 5; r2 = 9; do { r3 = r2; r2 = r0; r0 = r3; r1 += -1 } while (r1 != 0); r0 -= r2; exit`: two variables are exchanged. -/
def swp : List Slot := [⟨0xb7, 0, 0, 0, 5⟩, ⟨0xb7, 2, 0, 0, 9⟩, ⟨0xbf, 3, 2, 0, 0⟩, ⟨0xbf, 2, 0, 0, 0⟩, ⟨0xbf, 0, 3, 0, 0⟩, ⟨0x07, 1, 0, 0, 0xffffffff⟩, ⟨0x55, 1, 0, 65531, 0⟩, ⟨0x1f, 0, 2, 0, 0⟩,
  ⟨0x95, 0, 0, 0, 0⟩]

/-- **C60** does not hold of all runs: copies for phis are made one after another, the second reads what the first has written. -/
theorem C60_violated_swap : Fair swp ∧ both swp = some (4, 0) ∧ Broken swp :=
  ⟨fair_of_check (by decide +kernel), by decide +kernel, broken (v := 4) (w := 0) (by decide +kernel) (by decide)⟩

/-- `r6 = r1; r7 = r2; r8 = r3; r9 = r4; if (r6 != 0) { r6 += r7; r7 += r8; r8 += r9 }; r1 = r6; r2 = r7; call 1; r0 += r6; r0 += r7; r0 += r8; r0 += r9; exit` -/
def argp : List Slot := [⟨0xbf, 6, 1, 0, 0⟩, ⟨0xbf, 7, 2, 0, 0⟩, ⟨0xbf, 8, 3, 0, 0⟩, ⟨0xbf, 9, 4, 0, 0⟩, ⟨0x15, 6, 0, 3, 0⟩, ⟨0x0f, 6, 7, 0, 0⟩, ⟨0x0f, 7, 8, 0, 0⟩, ⟨0x0f, 8, 9, 0, 0⟩, ⟨0xbf, 1, 6, 0, 0⟩,
  ⟨0xbf, 2, 7, 0, 0⟩, ⟨0x85, 0, 0, 0, 1⟩, ⟨0x0f, 0, 6, 0, 0⟩, ⟨0x0f, 0, 7, 0, 0⟩, ⟨0x0f, 0, 8, 0, 0⟩, ⟨0x0f, 0, 9, 0, 0⟩, ⟨0x95, 0, 0, 0, 0⟩]

/-- **C60** does not hold of all runs: an argument register is overwritten before the argument has been copied. -/
theorem C60_violated_args : Fair argp ∧ both argp = some (125, 139) ∧ Broken argp :=
  ⟨fair_of_check (by decide +kernel), by decide +kernel, broken (v := 125) (w := 139) (by decide +kernel) (by decide)⟩

/-- Loading what has been stored through a copy of r10: `r2 = r10; r1 = *(u64 *)(r2 - 8)`. -/
def exC : List Slot := exS [⟨0xbf, 2, 10, 0, 0⟩, ⟨0x79, 1, 2, 65528, 0⟩]

/-- **C60** does not hold of all runs: an access through a copy of r10 is not moved below the spilled values, it reads a spilled value. -/
theorem C60_violated_copy : Fair exC ∧ both exC = some (71, 61) ∧ Broken exC :=
  ⟨fair_of_check (by decide +kernel), by decide +kernel, broken (v := 71) (w := 61) (by decide +kernel) (by decide)⟩

/-- Loading what has been stored through a difference: `r2 = r10; r2 -= 8; r1 = *(u64 *)r2`. -/
def exD : List Slot := exS [⟨0xbf, 2, 10, 0, 0⟩, ⟨0x17, 2, 0, 0, 8⟩, ⟨0x79, 1, 2, 0, 0⟩]

/-- **C60** does not hold of all runs: `r10 - 8` is moved in the wrong direction. -/
theorem C60_violated_sub : Fair exD ∧ both exD = some (71, 76) ∧ Broken exD :=
  ⟨fair_of_check (by decide +kernel), by decide +kernel, broken (v := 71) (w := 76) (by decide +kernel) (by decide)⟩

end Verif.Pipe
