import Verif.Cg.Front
import Verif.Cg.Lower
import Verif.Live.Model
import Verif.RA.Model
import Verif.RemPhi.Model
import Verif.Stack.Model
import Verif.Flatten.Model
import Verif.Emit.Model
/-!
# Model of `bpf_ir_compile` after its passes, and of `bpf_ir_cg_norm` (core/ir_cg.c:1324-1400, core/ir_cg_norm.c:1349-1377)

`R` is `fun->reachable_bbs`.

Simplifications
* `finalized` is `allocated`: between the rounds both are set together (`pre_color`, `init_cg`, `spill_array`, `spill`), and `clean_cg_data` resets `allocated` where `finalized` is
  not set.
* `bpf_ir_cg_prog_check` and `bpf_ir_prog_check` (`Verif/Check`) are left out, they do not change the function; so is logging.
* Builtin constants are not replaced (`replace_builtin_const`); with the replacement it is `compileB` (Compile/Safe.lean), which does the same on functions without builtin
  constants (C77).
-/
namespace Verif.Compile
open Verif Verif.IR Verif.Edit Verif.Cg
open Verif.Norm (VrPos Reg)

/-- `bpf_ir_init_insn_cg`, core/ir_cg.c:91, with `bpf_ir_is_void` (core/ir_insn.c:345-349); `change_call` takes the destination of calls away, core/ir_cg.c:208. -/
def dst (f : Fn) (x : Nat) : Option Nat := if isVoid (f.insn x).op ∨ (f.insn x).op = .call then none else some x

/-- The data of the allocator at the start of an iteration: `clean_cg_data` and the vertices that `liveness_analysis` inserts, core/ir_cg.c:622-662, 680.
`rg` are the instructions that stand for r0..r9. -/
def raOf (R : List Nat) (rg : Nat → Nat) (s : Cg) : RA.St where
  cg v := { pos := { allocated := (s.pos v).allocated, reg := (s.pos v).reg, spilled := (s.pos v).spilled }, fin := (s.pos v).allocated,
            nonvr := decide (v = s.f.sp) || (List.range 10).any (fun i => rg i == v) }
  regs := rg
  allVar := (List.range 10).map rg ++ Live.vars s.f R (dst s.f) (fun v => (s.pos v).allocated)
  seo := []

/-- The state after the last round: the function, the stack offset, the data of the allocator. -/
structure Allocated where
  s : Cg
  off : Int
  ra : RA.St

/-- The rounds of register allocation, core/ir_cg.c:1346-1377 -/
def allocate (R : List Nat) (rg : Nat → Nat) : Nat → Cg → Int → Out Allocated
  | 0, _, _ => .err
  | n + 1, s, off => do
    let l ← Live.analyse s.f R (dst s.f) (raOf R rg s)
    let q ← RA.preSpill l.2
    match q.2 with
    | [] => .ok ⟨s, off, q.1⟩
    | v :: vs => do
      let r ← spill (v :: vs) s off
      allocate R rg n r.1 r.2

/-- The register of a value, in the type of `Verif/Norm/Model.lean`. -/
def regPos (s : RA.St) (x : Nat) : VrPos := ⟨(s.cg x).pos.allocated, Fin.ofNat 11 (s.cg x).pos.reg, (s.cg x).pos.spilled⟩

/-- The instruction for a machine register: `cg_info(fun)->regs`, and `fun->sp` for r10. -/
def regInsn (f : Fn) (r : Reg) : Nat := if r.val = 10 then f.sp else rgOf f r.val

/-- What the steps have made. -/
structure Result where
  al : Allocated
  colored : RA.St
  ra : RA.St
  out : Cg
  blocks : List Flat.Block
  code : List Bpf.Slot

/-- The function after `add_stack_offset`: `stack_offset` is passed as an `s16`. -/
def Result.shifted (r : Result) : Fn := Stack.shift (BitVec.ofInt 16 r.al.off) r.al.s.f

/-- `bpf_ir_compile` after its passes and `bpf_ir_cg_norm`; the seventh iteration is an error, core/ir_cg.c:1349-1351. -/
def compile (f : Fn) (R : List Nat) : Out Result := do
  let p ← prepare f R
  let al ← allocate R (rgOf f) 6 p.1 p.2
  let c ← RA.coloring al.ra
  let m ← RA.coalescing (copiesOf al.s.f R) c
  let g := Stack.shift (BitVec.ofInt 16 al.off) al.s.f
  let t ← RemPhi.removePhi (regInsn f) (dst g) R ⟨g, regPos m⟩
  let bs ← Flatten.flatten t.f (dst t.f) t.pos R
  let code ← Emit.emit bs
  .ok ⟨al, c, m, t, bs, code⟩

end Verif.Compile
