import Verif.Edit.Model
/-!
# Model of the IR checker (core/aux/prog_check.c)

`R` is `fun->reachable_bbs`.  Messages are not modelled.  `check_users` goes on after an error; the outcome is an
error all the same.
-/
namespace Verif.Check
open Verif Verif.IR Verif.Edit

/-- `if (!(c)) RAISE_ERROR(...)` -/
def need (c : Bool) : Out Unit := if c then .ok () else .err

/-- `if (c) { ... }` -/
def onlyIf (c : Prop) [Decidable c] (a : Out Unit) : Out Unit := if c then a else .ok ()

/-- A loop that ends at the first error. -/
def each {α : Type} (l : List α) (c : α → Out Unit) : Out Unit :=
  match l with
  | [] => .ok ()
  | a :: l => do
    c a
    each l c

/-- `bpf_ir_valid_alu_type`, core/ir_helper.c:6-9 -/
def validAlu (t : AluTy) : Bool := t = .w32 || t = .w64

/-- `bpf_ir_valid_vr_type`, core/ir_helper.c:11-14 -/
def validVr (t : VrTy) : Bool := t = .t8 || t = .t16 || t = .t32 || t = .t64

/-- `v.type == IR_VALUE_INSN && v.data.insn_d->op == o` for `v = values[j]` -/
def isOp (f : Fn) (o : Op) (i : Insn) (j : Nat) : Out Bool :=
  match i.vals[j]? with
  | none => .ub
  | some (.insn a) => .ok ((f.insn a).op = o)
  | some _ => .ok false

/-- The loop over the operands, core/aux/prog_check.c:147-166 -/
def checkConst : Val → Out Unit
  | .const .plain _ ct _ => need (validAlu ct)
  | _ => .ok ()

/-- The body of the loop of `check_insn`, core/aux/prog_check.c:46-168 -/
def checkInsn (f : Fn) (b x : Nat) : Out Unit := do
  let i := f.insn x
  need (f.parent x = b)
  onlyIf (i.op = .loadraw ∨ i.op = .alloc ∨ i.op = .ja ∨ i.op = .phi ∨ i.op = .allocarray ∨ i.op = .throw) (need (i.vals.length = 0))
  onlyIf (i.op = .storeraw ∨ i.op = .load ∨ i.op = .ret ∨ i.op = .neg ∨ i.op = .htobe ∨ i.op = .htole) (need (i.vals.length = 1))
  onlyIf (i.op = .htobe ∨ i.op = .htole) (need (i.aux = 16 || i.aux = 32 || i.aux = 64))
  onlyIf (i.op = .store ∨ i.op.binAlu ∨ i.op.condJmp ∨ i.op = .getelemptr) (need (i.vals.length = 2))
  onlyIf (i.op = .store ∨ i.op = .load) (do let c ← isOp f .alloc i 0; need c)
  onlyIf (i.op = .getelemptr) (do let c ← isOp f .allocarray i 1; need c)
  onlyIf (i.op = .call) (need (i.aux ≠ 0))
  onlyIf (i.op.binAlu ∨ i.op.condJmp) (need (validAlu i.aluOp))
  onlyIf (i.op = .alloc ∨ i.op = .loadraw ∨ i.op = .storeraw) (need (validVr i.vrType))
  each (operands i) checkConst

/-- The body of the loop of `check_phi`, core/aux/prog_check.c:385-402, with the flag `all` -/
def checkPhi (f : Fn) (all : Bool) : List Nat → Out Unit
  | [] => .ok ()
  | x :: l =>
    if (f.insn x).op = .phi then do
      need all
      checkPhi f all l
    else checkPhi f false l

/-- `check_insn_users_use_insn`, core/aux/prog_check.c:5-34 -/
def checkUses (f : Fn) (y : Nat) : Out Unit :=
  each (f.users y) (fun u => need ((operands (f.insn u)).any (fun v => v = .insn y)))

/-- `check_insn_operand`, core/aux/prog_check.c:171-203 -/
def checkOperand (f : Fn) (x : Nat) : Out Unit :=
  each (operands (f.insn x)) (fun v =>
    match v with
    | .insn y => need ((f.users y).any (fun u => u = x))
    | _ => .ok ())

/-- `check_users`, core/aux/prog_check.c:206-226 -/
def checkUsers (f : Fn) (R : List Nat) : Out Unit := do
  each f.args (checkUses f)
  checkUses f f.sp
  each R (fun b => each (f.body b) (fun x => do
    checkUses f x
    checkOperand f x))

/-- The loop over the instructions in `check_jumping`, core/aux/prog_check.c:279-358; `last` tells whether no
instruction follows; `seen` is `jmp_exists`. -/
def checkJumps (f : Fn) (b : Nat) (seen : Bool) : List Nat → Out Bool
  | [] => .ok seen
  | x :: l =>
    let i := f.insn x
    if isJmp i.op then
      if l ≠ [] then .err
      else if i.op = .ret ∨ i.op = .throw then do
        need ((f.succs b).length = 0)
        checkJumps f b true l
      else if i.op.condJmp then do
        need ((f.succs b).length = 2)
        need ((f.succs b)[0]? = some i.bb1 && (f.succs b)[1]? = some i.bb2)
        checkJumps f b true l
      else do
        need ((f.succs b).length = 1)
        need ((f.succs b)[0]? = some i.bb1)
        checkJumps f b true l
    else checkJumps f b seen l

/-- The body of the loop of `check_jumping`, core/aux/prog_check.c:228-376 -/
def checkJumping (f : Fn) (b : Nat) : Out Unit := do
  each (f.preds b) (fun p => need ((f.succs p).any (fun s => s = b)))
  each (f.succs b) (fun s => need ((f.preds s).any (fun p => p = b)))
  let seen ← checkJumps f b false (f.body b)
  if seen then .ok () else need ((f.succs b).length = 1)

/-- `bpf_ir_prog_check`, core/aux/prog_check.c:420-434 -/
def progCheck (f : Fn) (R : List Nat) : Out Unit := do
  each R (fun b => each (f.body b) (checkInsn f b))
  each R (fun b => checkPhi f true (f.body b))
  checkUsers f R
  each R (checkJumping f)

end Verif.Check
