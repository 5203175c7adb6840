import Verif.Lift.Model
import Verif.Layout.Model
import Verif.Check.Model
import Verif.Flatten.EmitProps
import Verif.Phi.Model
import Verif.Ecall.Model
import Verif.Throw.Model
import Verif.Dead.Model
import Verif.Stack.Model
import Verif.Compile.Model
import Verif.DivZero.Model
/-!
# Model of the whole run (core/bpf_ir.c: bpf_ir_pass_postprocess, bpf_ir_lift, bpf_ir_run, bpf_ir_autorun; core/ir_cg.c: bpf_ir_compile)
-/
namespace Verif.Pipe
open Verif Verif.IR
open Verif.Flatten (graphOf)

/-- The function with the successor arrays of the graph. -/
def withSuccs (f : Fn) (g : Layout.Graph) : Fn := { f with succs := fun b => (g b).succs }

/-- `bpf_ir_pass_postprocess`, core/bpf_ir.c:1762-1775: the successor arrays are put in order, the blocks are laid out (`reachable_bbs`, the second component), the
function is checked unless `disable_prog_check` is set.  `fuel` bounds the traversal; `ub` if it is too small.  Not modelled: `bpf_ir_clean_metadata_all` (scratch pointers) and `end_bbs`
(a function of the layout, `Layout.endBbs`). -/
def post (fuel : Nat) (check : Bool) (f : Fn) : Out (Fn × List Nat) := do
  let g ← Layout.genSucc (graphOf f) f.allBbs
  let f := withSuccs f g
  let R ← (match Layout.layout (graphOf f) fuel f.entry with
    | none => .ub
    | some r => r)
  if check then Check.progCheck f R else .ok ()
  .ok (f, R)

/-- `bpf_ir_lift`, core/bpf_ir.c:1910-1939: reading the bytecode, SSA construction (`n` bounds the recursion), then `post`. -/
def lift (n fuel : Nat) (check : Bool) (P : List Bpf.Slot) : Out (Fn × List Nat) := do
  let f ← Lift.lift n P
  post fuel check f

/-- `run_single_pass`, core/bpf_ir.c:1777-1791, on the function and its `reachable_bbs`: the pass, then `post`. -/
def pass (fuel : Nat) (check : Bool) (p : List Nat → Fn → Out Fn) (s : Fn × List Nat) : Out (Fn × List Nat) := do
  let g ← p s.2 s.1
  post fuel check g

/-- `bpf_ir_optimize_ir` without parameters, core/passes/optimization.c:85-106; `fuel` bounds the rounds. -/
def optimizeIr (fuel : Nat) (R : List Nat) (f : Fn) : Out Fn := do
  let g ← Dead.removeNoUser R fuel f
  Dead.removeUnusedAlloc R g

/-- The passes that run without any options, but for the last: `bpf_ir_run`, core/bpf_ir.c:1822-1850, with the passes of epasstool
(core/epasstool/epasstool.c:10-18; `remove_trivial_phi`, and the post passes are off), then those of `bpf_ir_compile`, core/ir_cg.c:16-25, 1320-1321 (code compaction is off). -/
def passes (fuel : Nat) (check : Bool) (s : Fn × List Nat) : Out (Fn × List Nat) := do
  let s ← pass fuel check (fun R f => Phi.removeTrivial R fuel f) s
  let s ← pass fuel check (fun R f => Ecall.handleEcalls fuel R f) s
  let s ← pass fuel check (fun R f => .ok (Throw.translateThrow R f)) s
  pass fuel check (optimizeIr fuel) s

/-- What is known when a run is over: the function after the passes but before the uses of the stack pointer are marked, the function code generation gets with its reachable blocks, and
the result of code generation. -/
structure Run where
  opt : Fn
  fn : Fn
  blocks : List Nat
  res : Compile.Result

/-- `bpf_ir_autorun`, core/bpf_ir.c:1941-1991, without options: lifting, passes (the last is `add_stack_offset_pre_cg`), code generation; what is loaded then is `res.code`.
Not modelled: the test of the program size (`max_insns`), logs, and that the result of a `fake_run` is an error. -/
def autorun (n fuel : Nat) (check : Bool) (P : List Bpf.Slot) : Out Run := do
  let s ← lift n fuel check P
  let s ← passes fuel check s
  let t ← pass fuel check (fun _ f => Stack.pre f) s
  let r ← Compile.compile t.1 t.2
  .ok ⟨s.1, t.1, t.2, r⟩

/-- Lifting and `remove_trivial_phi`, which runs in front of the passes that can be turned on (core/bpf_ir.c:1822-1850). -/
def early (n fuel : Nat) (check : Bool) (P : List Bpf.Slot) : Out (Fn × List Nat) := do
  let s ← lift n fuel check P
  pass fuel check (fun R f => Phi.removeTrivial R fuel f) s

/-- The passes behind that when `div_by_zero` is turned on (core/epasstool/epasstool.c:14-18), up to `optimize_ir`. -/
def guardPasses (fuel : Nat) (check : Bool) (s : Fn × List Nat) : Out (Fn × List Nat) := do
  let s ← pass fuel check DivZero.divByZero s
  let s ← pass fuel check (fun R f => Ecall.handleEcalls fuel R f) s
  let s ← pass fuel check (fun R f => .ok (Throw.translateThrow R f)) s
  pass fuel check (optimizeIr fuel) s

/-- What is known when such a run is over: also the function that `div_by_zero` gets, with its reachable blocks. -/
structure GuardedRun extends Run where
  lifted : Fn
  reach : List Nat

/-- `bpf_ir_autorun`, core/bpf_ir.c:1941-1991, with `div_by_zero` turned on and no other options. -/
def autorunGuards (n fuel : Nat) (check : Bool) (P : List Bpf.Slot) : Out GuardedRun := do
  let s ← early n fuel check P
  let u ← guardPasses fuel check s
  let t ← pass fuel check (fun _ f => Stack.pre f) u
  let r ← Compile.compile t.1 t.2
  .ok { opt := u.1, fn := t.1, blocks := t.2, res := r, lifted := s.1, reach := s.2 }

end Verif.Pipe
