import Verif.Cg.Model
/-!
# Model of spilling (core/ir_cg.c:224-305, 922-1064)

Simplifications
* `finalized` and `spilled_size` are in the allocator's state (`Verif/RA`, `Verif/Stack`).
* The destination of the new instructions is in `Live`'s parameter `dst`.
-/
namespace Verif.Cg
open Verif Verif.IR Verif.Edit
open Verif.Norm (VrPos)

/-- `get_new_spill`, core/ir_cg.c:224-228: the new stack offset, which is also the offset of the slot -/
def newSpill (off : Int) (size : Nat) : Int := off - size

/-- The changes of all operands `x` of `u` to `rep` with `bpf_ir_change_value`, core/ir_cg.c:983-993 (all at once) -/
def changeAll (x : Nat) (rep : Val) (f : Fn) (u : Nat) : Fn :=
  (List.replicate ((operands (f.insn u)).count (.insn x)) ()).foldl (fun f _ => addUser (removeUser f (.insn x) u) rep u)
    { f with insn := upd f.insn u (mapOps (fun v => if v = .insn x then rep else v) (f.insn u)) }

/-- `cgir_load_stack`, `cgir_load_stack_bb_end`, core/ir_cg.c:928-950: a load with the type of the variable -/
def mkReload (f : Fn) (a : Nat) : Insn := { mkLoad (.insn a) with vrType := (f.insn a).vrType }

/-- The operands of the phi `u` in `spill_insn`, core/ir_cg.c:964-976, from operand `j` on -/
def reloadPhi (v a u : Nat) : List (Nat × Val) → Nat → Cg → Out Cg
  | [], _, s => .ok s
  | o :: r, j, s =>
    if o.2 = .insn v then do
      let g ← changeValue (createBb s.f (mkReload s.f a) o.1 .backBeforeJmp) u (.phi j) (.insn s.f.next)
      reloadPhi v a u r (j + 1) ⟨g, upd s.pos s.f.next noPos⟩
    else reloadPhi v a u r (j + 1) s

/-- `spill_insn`, core/ir_cg.c:952-998.  (The first two cases are for loads from and stores to the instruction itself.) -/
def reload (v a : Nat) (u : Nat) (s : Cg) : Out Cg :=
  if ((s.f.insn u).op = .store ∨ (s.f.insn u).op = .load) ∧ (s.f.insn u).vals.head? = some (.insn u) then .ok s
  else if (s.f.insn u).op = .phi then reloadPhi v a u (s.f.insn u).phi 0 s
  else do
    let g ← createAt s.f (mkReload s.f a) u .front
    .ok ⟨changeAll v (.insn s.f.next) g u, upd s.pos s.f.next noPos⟩

/-- The loop over the users, core/ir_cg.c:1052-1057 -/
def reloads (v a : Nat) : List Nat → Cg → Out Cg
  | [], s => .ok s
  | u :: us, s => do
    let s ← reload v a u s
    reloads v a us s

/-- One round of `spill`, core/ir_cg.c:1007-1062; `off` is the stack offset. -/
def spillOne (v : Nat) (s : Cg) (off : Int) : Out (Cg × Int) :=
  if (s.f.insn v).op = .call ∨ (s.f.insn v).op = .allocarray then .crit
  else if (s.f.insn v).op = .alloc then
    .ok (⟨s.f, upd s.pos v { s.pos v with allocated := true, spilled := newSpill off 8 }⟩, newSpill off 8)
  else do
    let g := createBb s.f (mkAlloc .t64) s.f.entry .frontAfterPhi
    let h ← createAt g (mkStore s.f.next (.insn v)) v .back
    let t ← reloads v s.f.next (s.f.users v) ⟨h, upd (upd s.pos s.f.next ⟨true, 0, newSpill off 8⟩) g.next noPos⟩
    .ok (t, newSpill off 8)

/-- `spill`, core/ir_cg.c:1000-1064, for the instructions `vs` -/
def spill : List Nat → Cg → Int → Out (Cg × Int)
  | [], s, off => .ok (s, off)
  | v :: vs, s, off => do
    let r ← spillOne v s off
    spill vs r.1 r.2

end Verif.Cg
