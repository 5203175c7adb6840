import Verif.Cg.Model
/-!
# Model of the lowering of calls and arguments (core/ir_cg.c:107-222)

Simplifications
* `finalized`, `lambda`, `w` and the neighbour sets are in the allocator's state (`Verif/RA`).
* That a call loses its destination (core/ir_cg.c:208) is in `Live`'s parameter `dst` (`Cg.dstOf`).
-/
namespace Verif.Cg
open Verif Verif.IR Verif.Edit
open Verif.Norm (VrPos Reg)

/-- `cg_info(fun)->regs[i]` of `initCg f` -/
def rgOf (f : Fn) (i : Nat) : Nat := f.next + i

/-- `init_cg`, core/ir_cg.c:107-162: instructions for the machine registers r0..r9, which (like the arguments) are in no block; the stack pointer is r10.
The other instructions have no position. -/
def initCg (f : Fn) : Cg where
  f := { f with
    insn := fun x => if f.next ≤ x ∧ x < f.next + 10 then { op := .reg, aux := BitVec.ofNat 32 (x - f.next) } else f.insn x
    users := fun x => if f.next ≤ x ∧ x < f.next + 10 then [] else f.users x
    next := f.next + 10
    args := f.args ++ (List.range 10).map (rgOf f) }
  pos x :=
    if x = f.sp then ⟨true, 10, 0⟩
    else if f.next ≤ x ∧ x < f.next + 10 then ⟨true, Fin.ofNat 11 (x - f.next), 0⟩
    else noPos

/-- The loop over the arguments in `change_call`, core/ir_cg.c:196-204, from argument `i` on; `pre_color`, core/ir_cg.c:77-83. -/
def argCopies (x : Nat) : List Val → Nat → Cg → Out Cg
  | [], _, s => .ok s
  | v :: vs, i, s => do
    let g ← createAt (removeUser s.f v x) (mkAssign v) x .front
    argCopies x vs (i + 1) ⟨g, upd s.pos s.f.next ⟨true, Fin.ofNat 11 (i + 1), 0⟩⟩

/-- One call in `change_call`, core/ir_cg.c:194-219 -/
def lowerCall (rg : Nat → Nat) (x : Nat) (s : Cg) : Out Cg := do
  let t ← argCopies x (s.f.insn x).vals 0 s
  let g := { t.f with insn := upd t.f.insn x { t.f.insn x with vals := [] } }
  match g.users x with
  | [] => .ok ⟨g, t.pos⟩
  | _ => do
    let h ← createAt g (mkAssign (.insn (rg 0))) x .back
    .ok ⟨replaceAll h x (.insn g.next), upd t.pos g.next noPos⟩

def lowerCalls (rg : Nat → Nat) : List Nat → Cg → Out Cg
  | [], s => .ok s
  | x :: xs, s => do
    let s ← lowerCall rg x s
    lowerCalls rg xs s

/-- `change_call`, core/ir_cg.c:185-222, in the reachable blocks `R`.  (The instructions it inserts into the lists it walks are not
calls.) -/
def changeCall (rg : Nat → Nat) (R : List Nat) (s : Cg) : Out Cg :=
  lowerCalls rg ((R.flatMap s.f.body).filter (fun x => (s.f.insn x).op == .call)) s

/-- One argument in `change_fun_arg`, core/ir_cg.c:170-181 -/
def lowerArg (rg : Nat → Nat) (s : Cg) (o : Nat × Nat) : Cg :=
  match s.f.users o.1 with
  | [] => s
  | _ =>
    let g := createBb s.f (mkAssign (.insn (rg (o.2 + 1)))) s.f.entry .frontAfterPhi
    ⟨replaceAll g o.1 (.insn s.f.next), upd s.pos s.f.next noPos⟩

/-- `change_fun_arg`, core/ir_cg.c:168-183, for the arguments `args` -/
def changeFunArg (rg : Nat → Nat) (args : List Nat) (s : Cg) : Cg := args.zipIdx.foldl (lowerArg rg) s

/-- The first steps of `bpf_ir_compile`, core/ir_cg.c:1324-1336: `init_cg`, `change_call`, `change_fun_arg` -/
def lower (f : Fn) (R : List Nat) : Out Cg := do
  let s ← changeCall (rgOf f) R (initCg f)
  .ok (changeFunArg (rgOf f) f.args s)

end Verif.Cg
