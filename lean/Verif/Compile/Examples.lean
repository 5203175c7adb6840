import Verif.Compile.Check
import Verif.Cg.Props
import Verif.Cg.FrontProps
import Verif.Flatten.EmitProps
import Verif.Emit.Check
import Verif.IR.OkCheck
/-!
# C57: examples and violations
-/
namespace Verif.Compile
open Verif Verif.IR Verif.Edit Verif.Cg Verif.Flatten
open Verif.Loc (Flow places placeOf virt)
open Verif.Lower (Ready Neat)

/-- A function with one argument `a`: an array of two elements, of which one is set to `a` through its address and is read at the end; a variable; a loop with a phi and a call with
two arguments.  13, 16 and 17 are used after the loop: one of them is spilled. -/
def compF : Fn := mkArgs [1] [
  ([(11, { op := .alloc, vrType := .t64 }), (12, { op := .allocarray, vrType := .t64, aux := 2 }), (13, { op := .getelemptr, vals := [c32 8, .insn 12] }),
    (14, { op := .storeraw, vrType := .t64, vals := [.insn 1], addr := .insn 13 }), (15, { op := .store, vals := [.insn 11, .insn 1] }),
    (16, mkBin .add .w64 (.insn 1) (c32 5)), (17, mkBin .mul .w64 (.insn 1) (c32 3)), (18, mkJa 1)], [1]),
  ([(19, { op := .phi, phi := [(0, c32 0), (1, .insn 22)] }), (20, { op := .load, vals := [.insn 11], vrType := .t64 }),
    (21, { op := .call, aux := 1, vals := [.insn 20, .insn 19] }), (22, mkBin .add .w64 (.insn 19) (.insn 21)),
    (23, mkJbin .jlt .w64 (.insn 22) (c32 100) 2 1)], [2, 1]),
  ([(24, { op := .loadraw, vrType := .t64, addr := .insn 13 }), (25, mkBin .add .w64 (.insn 24) (.insn 22)), (26, mkBin .add .w64 (.insn 25) (.insn 16)),
    (27, mkBin .sub .w64 (.insn 26) (.insn 17)), (28, mkRet (.insn 27))], [])]

def compR : List Nat := [0, 1, 2]

theorem compF_ok : Ok compF := ok_of_check (by decide +kernel) (fun _ h => mkFn_body h)

theorem compF_ready : Ready compF compR :=
  low_of_check (E := fun b => if b = 0 then [1, 11] else if b = 1 then [11, 13, 16, 17] else [13, 16, 17, 22]) (by decide +kernel) compF_ok

theorem compF_neat : Neat compF compR :=
  neat_of_check (E := fun b => [0, 1, 2, 3, 4, 5] ++ if b = 0 then [virt 1, virt 12, virt 21] else if b = 1 then [virt 11, virt 13, virt 16, virt 17, virt 19, virt 21] else
    [virt 13, virt 16, virt 17, virt 22]) (by decide +kernel)

theorem compF_arrays : ∀ b ∈ compR, ∀ x ∈ compF.body b, (compF.insn x).op = .allocarray → 0 < arrBytes (compF.insn x) ∧ arrBytes (compF.insn x) + 7 < 2 ^ 32 := by
  decide +kernel

theorem compF_graph : Graph compF := ⟨by decide +kernel, by decide +kernel, by decide +kernel⟩

theorem compF_conn : ∀ b ∈ compR, Conn compF b := by
  have h0 : Conn compF 0 := .entry
  have h1 : Conn compF 1 := .step h0 (by decide)
  have h2 : Conn compF 2 := .step h1 (by decide)
  simp [compR, h0, h1, h2]

theorem compF_wf : Layout.WF (graphOf compF) 0 3 := by
  refine Emit.wf_of_check (by decide +kernel) (fun b hb => ?_)
  have h1 : compF.body b = [] := Cg.mkFn_body (by
    show b ∉ List.range 3
    simp
    omega)
  show Layout.Blk.jaTo ⟨_, _, lastOf compF b⟩ = none
  unfold lastOf
  rw [h1]
  rfl

theorem compF_cond : ∀ b ∈ compR, ∀ t e, lastOf compF b = .cond t e → compF.succs b = [t, e] := by
  have h1 : ∀ b ∈ compR, (match lastOf compF b with | .cond t e => decide (compF.succs b = [t, e]) | _ => true) = true := by decide +kernel
  intro b hb t e hx
  have h1 := h1 b hb
  rw [hx] at h1
  exact of_decide_eq_true h1

/-- The frame pointer at the start. -/
def compP : BitVec 64 := 0x1000

/-- Arrays and variables where the code puts them. -/
def worldOf (r : Result) : World := ⟨exM, fun y => slot compP (r.out.pos y), fun _ => 8⟩

/-- The argument is 98. -/
def compσ (d : BitVec 16) : IR.St := ⟨fun y => if y = 1 then 98 else if y = 10 then compP + d.signExtend 64 else 0, fun _ => 0, fun _ => 0, []⟩

def compStart (r : Result) : Loc.St := startAt r.out.f compR r.out.pos compP (compσ r.depth) exσ

/-- What can be tested of the hypotheses. -/
def compB (r : Result) : Bool :=
  regularB compF compR r && fitsB compF compR r.depth && decide (-2 ^ 31 ≤ r.al.off) && r.blocks.all (fun b => b.insns.all Emit.plainB) && decide (r.code.length ≤ 32768) &&
  (namesL r.out.f compR).all (fun y => decide ((r.out.f.insn y).op = .alloc → Flat.bytes (r.out.f.insn y).vrType = some 8)) &&
  (List.range 40).all (saneB (worldOf r) r.out.f compR r.out.pos compP (compStart r)) &&
  doneB (Loc.runFn (worldOf r) r.out.f (places r.out.pos) 40 (compStart r)) &&
  decide (spilledL r.out.f compR r.out.pos ≠ [])

theorem compF_compiles : Cg.onOk (compile compF compR) compB = true := by decide +kernel

theorem serves_of {f : Fn} {R : List Nat} {pos : Nat → Norm.VrPos} (p : BitVec 64)
    (h : (namesL f R).all (fun y => decide ((f.insn y).op = .alloc → Flat.bytes (f.insn y).vrType = some 8)) = true) :
    Serves f R pos p exM ⟨exM, fun y => slot p (pos y), fun _ => 8⟩ := by
  simp only [List.all_eq_true, decide_eq_true_eq] at h
  refine ⟨fun _ _ _ => rfl, fun y hy => h y (mem_namesL.2 hy), rfl, ?_, fun _ _ _ _ _ _ _ _ => rfl, fun _ _ _ _ _ _ h => h, fun _ _ _ _ _ _ => rfl⟩
  intro tr fid as m m' _ _
  simp [exM, List.take_take]

/-- The hypotheses of the theorem hold for the example, and values are spilled; the bytecode does what the function does. -/
theorem compF_implements : ∃ r, compile compF compR = .ok r ∧ (∃ y, Spilled r.out.f compR r.out.pos y) ∧
    Implements (worldOf r) compF (compσ r.depth) exM r.code exσ (SameEffect r.out.f compR r.out.pos compP) := by
  obtain ⟨r, e, h⟩ := Cg.of_onOk compF_compiles
  refine ⟨r, e, ?_⟩
  simp only [compB, Bool.and_eq_true, decide_eq_true_eq] at h
  obtain ⟨⟨⟨⟨⟨⟨⟨⟨h1, h2⟩, h3⟩, h4⟩, h5⟩, h6⟩, h7⟩, h8⟩, h9⟩ := h
  refine ⟨?_, ?_⟩
  · obtain ⟨y, l, e⟩ := List.exists_cons_of_ne_nil h9
    exact ⟨y, mem_spilledL.1 (by rw [e]; exact List.mem_cons_self ..)⟩
  have hF := fits_of_check h2
  refine C57_codegen_partial (fuel := 20) e compF_ready compF_neat hF compF_arrays compF_graph compF_conn compF_wf (by decide +kernel) compF_cond
    (regular_of_check e compF_ready compF_neat hF compF_arrays compF_graph h1) h3 (fun b hb i hi => Emit.plain_of_check (List.all_eq_true.1 (List.all_eq_true.1 h4 b hb) i hi)) h5
    _ _ compP _ _ (serves_of _ h6) (fun _ _ _ => rfl) ⟨rfl, ?_, ?_, fun _ _ => rfl, rfl⟩ (sane_of_check 40 h7 (of_doneB h8))
  · rfl
  · intro i a h
    have h : [1][i]? = some a := h
    match i, h with
    | 0, h => cases h; rfl
    | i + 1, h => simp at h

/-- The function returns 98 + 294 + 103 - 294, so the bytecode does. -/
example : ∃ r, compile compF compR = .ok r ∧ ∃ m μ, Bpf.run exM r.code m 0 exσ = .done 201 μ := by
  obtain ⟨r, e, -, h⟩ := compF_implements
  refine ⟨r, e, ?_⟩
  have h1 : Cg.onOk (compile compF compR) (fun r => match IR.runFn (worldOf r) compF 40 (compσ r.depth) with | .done v _ => decide (v = 201) | _ => false) = true := by decide +kernel
  rw [e] at h1
  dsimp only [Cg.onOk] at h1
  split at h1
  · rename_i v σ' e2
    obtain ⟨m, μ, h2, -⟩ := h.returns 40 v σ' e2
    rw [of_decide_eq_true h1] at h2
    exact ⟨m, μ, h2⟩
  · cases h1

/-! ## Violations -/

/-- The machine at the start: r1 = 1, r2 = 2, and so on; empty memory. -/
def violμ : Bpf.St := ⟨fun r => if r = 10 then compP else if r ≤ 5 then BitVec.ofNat 64 r else 0, fun _ => 0, []⟩

/-- The function and its bytecode start alike. -/
def violσ (d : BitVec 16) : IR.St := ⟨fun y => if y ≤ 5 then BitVec.ofNat 64 y else if y = 10 then compP + d.signExtend 64 else 0, fun _ => 0, fun _ => 0, []⟩

/-- What the function returns, and what its bytecode returns. -/
def returns (f : Fn) (R : List Nat) : Option (BitVec 64 × BitVec 64) :=
  match compile f R with
  | .ok r =>
    match IR.runFn (worldOf r) f 60 (violσ r.depth), Bpf.run exM r.code 200 0 violμ with
    | .done v _, .done w _ => some (v, w)
    | _, _ => none
  | _ => none

/-- The starts are related as the theorem demands. -/
theorem viol_begins {f : Fn} {d : BitVec 16} {frame : BitVec 64 → Prop} (hs : f.sp = 10) (ha : f.args = [1] ∨ f.args = [1, 2]) :
    Begins f compP (d.signExtend 64) frame (violσ d) violμ := by
  refine ⟨rfl, by rw [hs]; rfl, fun i a h => ?_, fun _ _ => rfl, rfl⟩
  rcases ha with ha | ha <;> rw [ha] at h
  · match i, h with
    | 0, h => cases h; rfl
    | i + 1, h => simp at h
  · match i, h with
    | 0, h => cases h; rfl
    | 1, h => cases h; rfl
    | i + 2, h => simp at h

/-- `(b - a) - b` for the arguments `a` and `b`. -/
def argsF : Fn := mkArgs [1, 2] [([(11, mkBin .sub .w64 (.insn 2) (.insn 1)), (12, mkBin .sub .w64 (.insn 11) (.insn 2)), (13, mkRet (.insn 12))], [])]

/-- A loop whose phi is used after it. -/
def lostF : Fn := mkArgs [1] [([(11, mkJa 1)], [1]),
  ([(12, { op := .phi, phi := [(0, c32 1), (1, .insn 13)] }), (13, mkBin .add .w64 (.insn 12) (.insn 1)), (14, mkJbin .jlt .w64 (.insn 13) (c32 5) 2 1)], [2, 1]),
  ([(15, mkRet (.insn 12))], [])]

/-- A loop in which two values change places. -/
def swapF : Fn := mkArgs [1] [([(11, mkJa 1)], [1]),
  ([(12, { op := .phi, phi := [(0, c32 1), (1, .insn 13)] }), (13, { op := .phi, phi := [(0, c32 2), (1, .insn 12)] }),
    (14, { op := .phi, phi := [(0, c32 0), (1, .insn 15)] }), (15, mkBin .add .w64 (.insn 14) (.insn 1)), (16, mkJbin .jlt .w64 (.insn 15) (c32 2) 2 1)], [2, 1]),
  ([(17, mkBin .mul .w64 (.insn 12) (c32 10)), (18, mkBin .add .w64 (.insn 17) (.insn 13)), (19, mkRet (.insn 18))], [])]

/-- A variable that is given the value 13, then another one; 13 is used later. -/
def mergedF : Fn := mkArgs [1] [
  ([(11, { op := .alloc, vrType := .t64 }), (12, { op := .store, vals := [.insn 11, c32 7] }), (13, mkBin .add .w64 (.insn 1) (c32 1)), (14, mkJa 1)], [1]),
  ([(15, { op := .phi, phi := [(0, c32 0), (1, .insn 17)] }), (16, { op := .load, vals := [.insn 11], vrType := .t64 }), (17, mkBin .add .w64 (.insn 15) (.insn 16)),
    (18, { op := .store, vals := [.insn 11, .insn 13] }), (19, { op := .store, vals := [.insn 11, c32 9] }), (20, mkJbin .jlt .w64 (.insn 17) (c32 10) 2 1)], [2, 1]),
  ([(21, mkBin .add .w64 (.insn 17) (.insn 13)), (22, mkRet (.insn 21))], [])]

/-- **C57** is violated by a function of three instructions: with the arguments 1 and 2 it returns (2 - 1) - 2, but its bytecode returns -2.  The copy of the second argument is put in r1 before
the first one is copied from there (`C52_violated`). -/
theorem C57_violated_args : returns argsF [0] = some (-1#64, -2#64) := by decide +kernel

/-- **C57** is violated: the phi is overwritten at the end of the loop although it is used after it (`C39_violated_lost`). -/
theorem C57_violated_lost : returns lostF [0, 1, 2] = some (4#64, 5#64) := by decide +kernel

/-- **C57** is violated: the second copy reads what the first one has overwritten (`C39_violated_swap`). -/
theorem C57_violated_swap : returns swapF [0, 1, 2] = some (21#64, 22#64) := by decide +kernel

/-- **C57** is violated: coalescing puts the variable and the value 13 in one register, since one is copied to the other, and the value is lost when the variable changes
(`C37_violated`). -/
theorem C57_violated_merged : returns mergedF [0, 1, 2] = some (18#64, 20#64) := by decide +kernel

/-- These functions are as the theorem demands. -/
theorem viol_ready : (Ready argsF [0] ∧ Neat argsF [0]) ∧ (Ready lostF [0, 1, 2] ∧ Neat lostF [0, 1, 2]) ∧ (Ready swapF [0, 1, 2] ∧ Neat swapF [0, 1, 2]) ∧
    (Ready mergedF [0, 1, 2] ∧ Neat mergedF [0, 1, 2]) := by
  refine ⟨⟨?_, ?_⟩, ⟨?_, ?_⟩, ⟨?_, ?_⟩, ?_, ?_⟩
  · exact low_of_check (E := fun _ => [1, 2]) (by decide +kernel) (ok_of_check (by decide +kernel) (fun _ h => mkFn_body h))
  · exact neat_of_check (E := fun _ => [virt 1, virt 2]) (by decide +kernel)
  · exact low_of_check (E := fun b => if b = 2 then [12] else [1]) (by decide +kernel) (ok_of_check (by decide +kernel) (fun _ h => mkFn_body h))
  · exact neat_of_check (E := fun b => if b = 2 then [virt 12] else [virt 1, virt 12]) (by decide +kernel)
  · exact low_of_check (E := fun b => if b = 2 then [12, 13] else [1]) (by decide +kernel) (ok_of_check (by decide +kernel) (fun _ h => mkFn_body h))
  · exact neat_of_check (E := fun b => if b = 2 then [virt 12, virt 13] else [virt 1, virt 12, virt 13, virt 14]) (by decide +kernel)
  · exact low_of_check (E := fun b => if b = 2 then [17, 13] else if b = 1 then [11, 13] else [1, 11]) (by decide +kernel) (ok_of_check (by decide +kernel) (fun _ h => mkFn_body h))
  · exact neat_of_check (E := fun b => if b = 2 then [virt 17, virt 13] else if b = 1 then [virt 11, virt 13, virt 15] else [virt 1]) (by decide +kernel)

/-- The first one is not regular because of `regs`, the next two because of `phis`, the last one because of `apart`. -/
example : Cg.onOk (compile argsF [0]) (fun r => !keptB r.al.s.f [0] (places r.al.s.pos) (places (regPos r.ra)) (needAt r.al.s.f (places r.al.s.pos) [0] 4) (r.al.s.f.body 0)) = true ∧
    Cg.onOk (compile lostF [0, 1, 2]) (fun r => !copiesB r.shifted [0, 1, 2] (places (regPos r.ra)) (needAt r.shifted (places (regPos r.ra)) [0, 1, 2] 4)) = true ∧
    Cg.onOk (compile swapF [0, 1, 2]) (fun r => !copiesB r.shifted [0, 1, 2] (places (regPos r.ra)) (needAt r.shifted (places (regPos r.ra)) [0, 1, 2] 4)) = true ∧
    Cg.onOk (compile mergedF [0, 1, 2]) (fun r => !apartB r.ra r.al.ra.seo) = true := by
  refine ⟨?_, ?_, ?_, ?_⟩ <;> decide +kernel

end Verif.Compile
