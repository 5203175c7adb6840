import Verif.Pipe.Safe
import Verif.Pipe.GuardedProps
/-!
# C76: code generation never crashes
-/
namespace Verif.Pipe
open Verif Verif.IR
open Verif.Bpf (Slot decode WellShaped Closed)
open Verif.Stack (Form)
open Verif.Compile (Safe)

variable {f : Fn} {R : List Nat}

/-- **C76** (partial): on every function in SSA form with the shape that the lifter gives it and the passes keep (`Code`), with its blocks laid out, code generation comes to an end with bytecode or
reports an error: no `CRITICAL`, no access outside of an array, no use of what is not there, no loop that does not end, however many registers are short and however often values are spilled.

Missing: functions with calls of helper 6 (`bpf_trace_printk`, whose number of arguments is not known); uses of the frame pointer in other forms than `r10 + constant` and accesses at constant
offsets from r10 (`C76_violated_sp`); stores to addresses that are constants (`C76_violated_store`); variables and arrays that passes have added. -/
theorem C76_codegen_partial (h : Code f) (hl : LaidOut f R) (h6 : NoPrintk f) (hF : ∀ x, InBody f x → Form f.sp 0 .rawoff (f.insn x)) (hs : NoFixedStore f) :
    Compile.compile f R = .err ∨ ∃ r, Compile.compile f R = .ok r := h.compile_safe hl h6 hF hs

theorem marked_store (h : NoFixedStore f) : NoFixedStore (marked f) := by
  intro x hx ho
  rw [(marked_same f x).1] at ho
  obtain ⟨y, e⟩ := h x hx ho
  rcases marked_cases f x with e' | ⟨c, ct, b, ho', _, _⟩
  · exact ⟨y, by rw [e', e]⟩
  · rw [ho'] at ho; cases ho

/-- The last pass and code generation. -/
theorem behind_passes (h : Code f) (h6 : NoPrintk f) (hF : ∀ x, InBody f x → Form f.sp 0 .plain (f.insn x)) (hs : NoFixedStore f) :
    ∃ k R', ∀ fuel, k ≤ fuel → ∀ check R, pass fuel check (fun _ f => Stack.pre f) (f, R) = .ok (marked f, R') ∧ Safe (Compile.compile (marked f) R') := by
  obtain ⟨e1, e2⟩ := h.pre hF
  have hm := h.marked
  obtain ⟨k, R', lR, -, hk⟩ := hm.post
  refine ⟨k, R', fun fuel hfu check R => ?_⟩
  have ep : ∀ R, pass fuel check (fun _ f => Stack.pre f) (f, R) = .ok (marked f, R') := fun R => by
    unfold pass
    dsimp only
    rw [e1, Out.ok_bind, hk fuel hfu check]
  obtain ⟨-, -, -, hno, hF', -⟩ := marked_of h h6 (ep []) hF
  exact ⟨ep R, hm.compile_safe lR hno hF' (marked_store hs)⟩

/-- **C76** (partial), for whole runs: for every well-shaped program of at most 32768 slots from which control never runs off the end, whose instructions are lifted faithfully and that the lifter
accepts: the passes succeed with some function `g` (C59), and if `g` uses the frame pointer only in the usual forms and stores only to addresses that are computed, then the whole run ends with
bytecode or an error, with the checker on or off. -/
theorem C76_run_partial {P : List Slot} (hw : WellShaped P) (hc : Closed P) (hlen : P.length ≤ 32768) (hu : ∀ sl ∈ P, ∀ i, decode sl = some i → Usual i)
    (hcl : ∀ sl ∈ P, ∀ i, decode sl = some i → Lift.Clean i) {n : Nat} {f : Fn} (hf : Lift.lift n P = .ok f) :
    ∃ g R k, (∀ fuel, k ≤ fuel → ∀ check, (do let s ← lift n fuel check P; passes fuel check s) = .ok (g, R)) ∧
      ((∀ x, InBody g x → Form g.sp 0 .plain (g.insn x)) → NoFixedStore g →
        ∃ k', ∀ fuel, k' ≤ fuel → ∀ check, autorun n fuel check P = .err ∨ ∃ A, autorun n fuel check P = .ok A) := by
  obtain ⟨f', R', k, g, R, h1, _, _, h2, h3, h6, _⟩ := passes_lift hw hc hlen hu hcl hf
  refine ⟨g, R, k, fun fuel hfu check => ?_, fun hF hs => ?_⟩
  · obtain ⟨e1, e2⟩ := h1 fuel hfu check
    rw [e1, Out.ok_bind]
    exact e2
  · obtain ⟨k2, R2, hk⟩ := behind_passes h2 h6 hF hs
    refine ⟨k + k2, fun fuel hfu check => ?_⟩
    obtain ⟨e1, e2⟩ := h1 fuel (by omega) check
    obtain ⟨e3, e4⟩ := hk fuel (by omega) check R
    unfold autorun
    rw [e1, Out.ok_bind, e2, Out.ok_bind, e3, Out.ok_bind]
    rcases e4 with e4 | ⟨r, e4⟩ <;> rw [e4]
    · exact .inl rfl
    · exact .inr ⟨_, rfl⟩

/-- **C76** (partial), for whole runs with `div_by_zero`: the same, if no phi is fed from a block with a division. -/
theorem C76_guarded_partial {P : List Slot} (hP : Fair P) {n : Nat} {f0 : Fn} (hf : Lift.lift n P = .ok f0) :
    ∃ f R k, (∀ fuel, k ≤ fuel → ∀ check, early n fuel check P = .ok (f, R)) ∧
      (NoLabels R f → ∃ g R' k', (∀ fuel, k' ≤ fuel → ∀ check, guardPasses fuel check (f, R) = .ok (g, R')) ∧
        ((∀ x, InBody g x → Form g.sp 0 .plain (g.insn x)) → NoFixedStore g →
          ∃ k', ∀ fuel, k' ≤ fuel → ∀ check, autorunGuards n fuel check P = .err ∨ ∃ A, autorunGuards n fuel check P = .ok A)) := by
  obtain ⟨m, R, k, a1, a2, a3, a4, _⟩ := early_of hP.shaped hP.closed hP.len hP.usual hP.clean hf
  refine ⟨m, R, k, a1, fun hl => ?_⟩
  obtain ⟨_, k', u, R', _, _, b3, _, b5, b6, b7, _⟩ := guardPasses_code a2 a4 a3 hl
  refine ⟨u, R', k', b3, fun hF hs => ?_⟩
  obtain ⟨k2, R2, hk⟩ := behind_passes b5 b7 hF hs
  refine ⟨k + k' + k2, fun fuel hfu check => ?_⟩
  obtain ⟨e3, e4⟩ := hk fuel (by omega) check R'
  unfold autorunGuards
  rw [a1 fuel (by omega) check, Out.ok_bind, b3 fuel (by omega) check, Out.ok_bind, e3, Out.ok_bind]
  rcases e4 with e4 | ⟨r, e4⟩ <;> rw [e4]
  · exact .inl rfl
  · exact .inr ⟨_, rfl⟩

/-! ## Examples -/

/-- A test for the conditions on what the passes hand on. -/
def tameB (g : Fn) : Bool := g.allBbs.all fun b => (g.body b).all fun x => plainB g.sp 0 (g.insn x) &&
  (!decide ((g.insn x).op = .storeraw) || match (g.insn x).addr with | .insn _ => true | _ => false)

theorem tame_of_check {g : Fn} (h : tameB g = true) : (∀ x, InBody g x → Form g.sp 0 .plain (g.insn x)) ∧ NoFixedStore g := by
  have key : ∀ x, InBody g x → plainB g.sp 0 (g.insn x) = true ∧ (!decide ((g.insn x).op = .storeraw) || match (g.insn x).addr with | .insn _ => true | _ => false) = true := by
    rintro x ⟨b, hb, hx⟩
    have := List.all_eq_true.1 (List.all_eq_true.1 h b hb) x hx
    rwa [Bool.and_eq_true] at this
  refine ⟨fun x hx => plain_of_check (key x hx).1, fun x hx ho => ?_⟩
  have := (key x hx).2
  rw [decide_eq_true ho] at this
  split at this
  · rename_i y e; exact ⟨y, e⟩
  · cases this

/-- The hypotheses of `C76_run_partial` hold for `exA`, where a value is spilled, and for `exL`, which has a loop; the runs succeed. -/
example : (Fair exA ∧ (Lift.lift 100 exA).isOk = true ∧ Cg.onOk (do let s ← lift 100 100 true exA; passes 100 true s) (fun s => tameB s.1) = true ∧ (autorun 100 100 true exA).isOk = true) ∧
    Fair Lift.exL ∧ (Lift.lift 100 Lift.exL).isOk = true ∧ Cg.onOk (do let s ← lift 100 100 true Lift.exL; passes 100 true s) (fun s => tameB s.1) = true ∧ (autorun 100 100 true Lift.exL).isOk = true :=
  ⟨⟨fair_of_check (by decide +kernel), by decide +kernel, by decide +kernel, by decide +kernel⟩, fair_of_check (by decide +kernel), by decide +kernel, by decide +kernel, by decide +kernel⟩

/-- Those of `C76_guarded_partial` hold for `exDivide`. -/
example : Fair exDivide ∧ (Lift.lift 100 exDivide).isOk = true ∧ Cg.onOk (early 100 100 true exDivide) (fun s => noLabelsB s.2 s.1) = true ∧
    Cg.onOk (do let s ← early 100 100 true exDivide; guardPasses 100 true s) (fun s => tameB s.1) = true :=
  ⟨fair_of_check (by decide +kernel), by decide +kernel, by decide +kernel, by decide +kernel⟩

/-- `r0 = 5; r0 = -r0; exit`: the negation of a constant. -/
def exNeg : List Slot := [⟨0xb7, 0, 0, 0, 5⟩, ⟨0x87, 0, 0, 0, 0⟩, ⟨0x95, 0, 0, 0, 0⟩]

def isErr {α : Type} : Out α → Bool
  | .err => true
  | _ => false

/-- They hold for `exNeg` too, which code generation rejects. -/
example : Fair exNeg ∧ Cg.onOk (do let s ← lift 100 100 true exNeg; passes 100 true s) (fun s => tameB s.1) = true ∧ isErr (autorun 100 100 true exNeg) = true :=
  ⟨fair_of_check (by decide +kernel), by decide +kernel, by decide +kernel⟩

/-! ## Violations -/

def isCrit {α : Type} : Out α → Bool
  | .crit => true
  | _ => false

def isUb {α : Type} : Out α → Bool
  | .ub => true
  | _ => false

/-- `r3 = 4096; *(u64 *)(r3 + 0) = r1; r0 = 0; exit`: the address is known, and the passes put it into the store. -/
def exKnown : List Slot := [⟨0xb7, 3, 0, 0, 4096⟩, ⟨0x7b, 3, 1, 0, 0⟩, ⟨0xb7, 0, 0, 0, 0⟩, ⟨0x95, 0, 0, 0, 0⟩]

/-- **C76** does not hold of all programs: a store to an address that is a constant ends in `CRITICAL`, which aborts the process. -/
theorem C76_violated_store : Fair exKnown ∧ (Lift.lift 100 exKnown).isOk = true ∧
    Cg.onOk (do let s ← lift 100 100 true exKnown; passes 100 true s) (fun s => s.1.allBbs.all fun b => (s.1.body b).all fun x => plainB s.1.sp 0 (s.1.insn x)) = true ∧
    isCrit (autorun 100 100 true exKnown) = true :=
  ⟨fair_of_check (by decide +kernel), by decide +kernel, by decide +kernel, by decide +kernel⟩

/-- `r6 = r10; r2 = r10; call 1; r0 += r6; exit`: the frame pointer is an argument and an operand. -/
def exFrame : List Slot := [⟨0xbf, 6, 10, 0, 0⟩, ⟨0xbf, 2, 10, 0, 0⟩, ⟨0x85, 0, 0, 0, 1⟩, ⟨0x0f, 0, 6, 0, 0⟩, ⟨0x95, 0, 0, 0, 0⟩]

/-- **C76** does not hold of all programs: `add_stack_offset_pre_cg` walks along the users of the frame pointer while it takes users out, so it passes over every second one; the frame pointer
then is an operand of the addition, and `make_conflict` reads `regs[10]` of an array of ten. -/
theorem C76_violated_sp : Fair exFrame ∧ (Lift.lift 100 exFrame).isOk = true ∧
    Cg.onOk (do let s ← lift 100 100 true exFrame; passes 100 true s) (fun s => s.1.allBbs.all fun b => (s.1.body b).all fun x => !decide ((s.1.insn x).op = .storeraw)) = true ∧
    isUb (autorun 100 100 true exFrame) = true :=
  ⟨fair_of_check (by decide +kernel), by decide +kernel, by decide +kernel, by decide +kernel⟩

end Verif.Pipe
