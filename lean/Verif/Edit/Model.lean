import Verif.IR.Syntax
/-!
# Model of the IR editing interface (core/ir_insn.c, core/ir_bb.c, core/ir_value.c)

Pointers to instructions and blocks are numbers; the user arrays and instruction lists are Lean lists
(C01 shows that the C arrays behave like lists; C72 that the linked lists do).

Simplifications
* A failed allocation is not modelled.
* `err` forgets the changes made before the error was raised.
* An instruction that was erased stays in the heap but is in no list; touching it in C would be a use after
  free, so the theorems speak about instructions that are in a list (or are the stack pointer or arguments).
-/
namespace Verif.Edit
open Verif Verif.IR

/-- Functions changed at one place. -/
def upd {α : Type} (f : Nat → α) (k : Nat) (v : α) : Nat → α := fun j => if j = k then v else f j

/-- LOADRAW and STORERAW have an address operand. -/
def raw (o : Op) : Bool := o = .loadraw || o = .storeraw

/-- `bpf_ir_get_operands`, core/ir_insn.c:134-159 -/
def operands (i : Insn) : List Val :=
  i.vals ++ (if i.op = .phi then i.phi.map (·.2) else []) ++ (if raw i.op then [i.addr] else [])

/-- Change every operand (through the pointers returned by `bpf_ir_get_operands`). -/
def mapOps (g : Val → Val) (i : Insn) : Insn :=
  { i with
    vals := i.vals.map g
    phi := if i.op = .phi then i.phi.map (fun o => (o.1, g o.2)) else i.phi
    addr := if raw i.op then g i.addr else i.addr }

/-- `bpf_ir_is_jmp`, core/ir_insn.c:321-325 -/
def isJmp (o : Op) : Bool := o = .ja || o.condJmp || o = .ret || o = .throw

/-- `bpf_ir_is_void`, core/ir_insn.c:345-349 -/
def isVoid (o : Op) : Bool := isJmp o || o = .storeraw || o = .store

/-- `bpf_ir_val_add_user`, core/ir_insn.c:291-299 -/
def addUser (f : Fn) (v : Val) (x : Nat) : Fn :=
  match v with
  | .insn y => { f with users := upd f.users y (f.users y ++ [x]) }
  | _ => f

/-- `bpf_ir_val_remove_user`, core/ir_insn.c:272-286: the first occurrence only -/
def removeUser (f : Fn) (v : Val) (x : Nat) : Fn :=
  match v with
  | .insn y => { f with users := upd f.users y ((f.users y).erase x) }
  | _ => f

/-! ## Instruction lists -/

/-- `enum insert_position`, core/include/linux/bpf_ir.h:668-674 -/
inductive Pos where
  | back | front | backBeforeJmp | frontAfterPhi
  deriving Repr, DecidableEq

/-- `list_add_tail(new, anchor)`: in front of the anchor -/
def insBefore (l : List Nat) (a x : Nat) : List Nat := l.takeWhile (· != a) ++ x :: l.dropWhile (· != a)

/-- `list_add(new, anchor)`: behind the anchor -/
def insAfter (l : List Nat) (a x : Nat) : List Nat := l.takeWhile (· != a) ++ a :: x :: (l.dropWhile (· != a)).tail

/-- `bpf_ir_insert_at_bb`, core/ir_insn.c:229-270.  In the last case the loop variable points to the list
head when all instructions are phis. -/
def placeBb (f : Fn) (l : List Nat) (x : Nat) : Pos → List Nat
  | .back => l ++ [x]
  | .front => x :: l
  | .backBeforeJmp =>
    match l.getLast? with
    | some a => if isJmp (f.insn a).op then insBefore l a x else l ++ [x]
    | none => l ++ [x]
  | .frontAfterPhi =>
    match l.find? (fun a => (f.insn a).op != .phi) with
    | some a => insBefore l a x
    | none => l ++ [x]

/-- `bpf_ir_insert_at`, core/ir_insn.c:212-227 -/
def placeAt (f : Fn) (l : List Nat) (a x : Nat) (pos : Pos) : Out (List Nat) :=
  if (f.insn a).op = .phi ∧ (f.insn x).op ≠ .phi then .ok (placeBb f l x .frontAfterPhi)
  else
    match pos with
    | .back => .ok (insAfter l a x)
    | .front => .ok (insBefore l a x)
    | _ => .crit

/-! ## Creating instructions -/

/-- `bpf_ir_create_insn_base` and the assignments of a constructor, core/ir_insn.c:5-18, 371-710: the new
instruction is not in a list yet. -/
def alloc (f : Fn) (i : Insn) (b : Nat) : Fn :=
  (operands i).foldl (fun g v => addUser g v f.next)
    { f with insn := upd f.insn f.next i, users := upd f.users f.next [], parent := upd f.parent f.next b }

/-- `bpf_ir_create_*_insn_bb`: the new instruction is `f.next`. -/
def createBb (f : Fn) (i : Insn) (b : Nat) (pos : Pos) : Fn :=
  let g := alloc f i b
  { g with next := f.next + 1, body := upd g.body b (placeBb g (g.body b) f.next pos) }

/-- `bpf_ir_create_*_insn`: next to the instruction `a`. -/
def createAt (f : Fn) (i : Insn) (a : Nat) (pos : Pos) : Out Fn := do
  let b := f.parent a
  let g := alloc f i b
  let l ← placeAt g (g.body b) a f.next pos
  .ok { g with next := f.next + 1, body := upd g.body b l }

def const32 (c : BitVec 32) : Val := .const .plain (c.signExtend 64) .w32 .none
def const64 (c : BitVec 64) : Val := .const .plain c .w64 .none

/-! The constructors, core/ir_insn.c:371-710. -/
def mkAlloc (t : VrTy) : Insn := { op := .alloc, vrType := t }
def mkAllocarray (t : VrTy) (n : BitVec 32) : Insn := { op := .allocarray, vrType := t, aux := n }
def mkLoadimm (k : Nat) (v : BitVec 64) : Insn := { op := .loadimm, immKind := k, imm64 := v }
def mkGetelemptr (a : Nat) (o : Val) : Insn := { op := .getelemptr, vals := [o, .insn a] }
def mkNeg (t : AluTy) (v : Val) : Insn := { op := .neg, vals := [v], aluOp := t }
def mkEnd (o : Op) (w : BitVec 32) (v : Val) : Insn := { op := o, vals := [v], aux := w }
def mkStore (a : Nat) (v : Val) : Insn := { op := .store, vals := [.insn a, v] }
def mkLoad (v : Val) : Insn := { op := .load, vals := [v] }
def mkBin (o : Op) (t : AluTy) (v w : Val) : Insn := { op := o, vals := [v, w], aluOp := t }
def mkJa (b : Nat) : Insn := { op := .ja, bb1 := b }
def mkJbin (o : Op) (t : AluTy) (v w : Val) (b1 b2 : Nat) : Insn := { op := o, vals := [v, w], bb1 := b1, bb2 := b2, aluOp := t }
def mkRet (v : Val) : Insn := { op := .ret, vals := [v] }
def mkThrow : Insn := { op := .throw }
def mkCall (fid : BitVec 32) : Insn := { op := .call, aux := fid }
def mkLoadraw (t : VrTy) (a : Val) (off : BitVec 16) (k : CKind) : Insn := { op := .loadraw, vrType := t, addr := a, addrOff := off, addrKind := k }
def mkStoreraw (t : VrTy) (a : Val) (off : BitVec 16) (k : CKind) (v : Val) : Insn :=
  { op := .storeraw, vrType := t, addr := a, addrOff := off, addrKind := k, vals := [v] }
def mkAssign (v : Val) : Insn := { op := .assign, vals := [v] }
def mkPhi : Insn := { op := .phi }

/-- `bpf_ir_phi_add_operand`, core/ir_insn.c:351-360 -/
def phiAddOperand (f : Fn) (x b : Nat) (v : Val) : Fn :=
  addUser { f with insn := upd f.insn x { f.insn x with phi := (f.insn x).phi ++ [(b, v)] } } v x

/-- `bpf_ir_add_call_arg`, core/ir_insn.c:362-367: `values` has room for 5 -/
def addCallArg (f : Fn) (x : Nat) (v : Val) : Out Fn :=
  if 5 ≤ (f.insn x).vals.length then .ub
  else .ok (addUser { f with insn := upd f.insn x { f.insn x with vals := (f.insn x).vals ++ [v] } } v x)

/-! ## Changing operands -/

/-- A pointer to an operand. -/
inductive Ptr where
  | val (j : Nat) | phi (j : Nat) | addr
  deriving Repr, DecidableEq

def getPtr (i : Insn) : Ptr → Option Val
  | .val j => i.vals[j]?
  | .phi j => if i.op = .phi then (i.phi[j]?).map (·.2) else none
  | .addr => if raw i.op then some i.addr else none

def setPtr (i : Insn) (v : Val) : Ptr → Insn
  | .val j => { i with vals := i.vals.set j v }
  | .phi j => { i with phi := i.phi.modify j (fun o => (o.1, v)) }
  | .addr => { i with addr := v }

/-- `bpf_ir_change_value`, core/ir_value.c:130-136 -/
def changeValue (f : Fn) (x : Nat) (p : Ptr) (v : Val) : Out Fn :=
  match getPtr (f.insn x) p with
  | none => .ub
  | some old =>
    let f := removeUser f old x
    .ok (addUser { f with insn := upd f.insn x (setPtr (f.insn x) v p) } v x)

/-- One round of the outer loop of `bpf_ir_replace_all_usage`, core/ir_insn.c:83-98 -/
def replaceIn (x : Nat) (rep : Val) (f : Fn) (u : Nat) : Fn :=
  (List.replicate ((operands (f.insn u)).count (.insn x)) ()).foldl (fun f _ => addUser f rep u)
    { f with insn := upd f.insn u (mapOps (fun v => if v = .insn x then rep else v) (f.insn u)) }

/-- `bpf_ir_replace_all_usage`, core/ir_insn.c:77-100 -/
def replaceAll (f : Fn) (x : Nat) (rep : Val) : Fn :=
  (f.users x).foldl (replaceIn x rep) { f with users := upd f.users x [] }

/-- `bpf_ir_replace_all_usage_except`, core/ir_insn.c:102-130 -/
def replaceExcept (f : Fn) (x : Nat) (rep : Val) (e : Nat) : Fn :=
  (f.users x).foldl (fun f u => if u = e then { f with users := upd f.users x (f.users x ++ [u]) } else replaceIn x rep f u)
    { f with users := upd f.users x [] }

/-- `bpf_ir_erase_insn`, core/ir_insn.c:166-199 -/
def erase (f : Fn) (x : Nat) : Out Fn :=
  if (f.users x).any (· != x) then .err
  else
    let f := (operands (f.insn x)).foldl (fun f v => removeUser f v x) f
    let b := f.parent x
    .ok { f with body := upd f.body b ((f.body b).erase x) }

/-! ## Blocks -/

/-- `bpf_ir_array_push_unique` -/
def pushU (l : List Nat) (x : Nat) : List Nat := if x ∈ l then l else l ++ [x]

/-- A block not used so far. -/
def freshBb (f : Fn) : Nat := f.allBbs.foldr max 0 + 1

/-- `bpf_ir_create_bb`, core/ir_bb.c:20-45: the new block is `freshBb f`. -/
def newBb (f : Fn) : Fn :=
  let n := freshBb f
  { f with allBbs := f.allBbs ++ [n], body := upd f.body n [], preds := upd f.preds n [], succs := upd f.succs n [] }

/-- `bpf_ir_connect_bb`, core/ir_bb.c:47-52 -/
def connect (f : Fn) (a b : Nat) : Fn :=
  let f := { f with succs := upd f.succs a (pushU (f.succs a) b) }
  { f with preds := upd f.preds b (pushU (f.preds b) a) }

/-- `bpf_ir_disconnect_bb`, core/ir_bb.c:54-69 -/
def disconnect (f : Fn) (a b : Nat) : Fn :=
  let f := { f with succs := upd f.succs a ((f.succs a).erase b) }
  { f with preds := upd f.preds b ((f.preds b).erase a) }

/-- The edges of `bpf_ir_split_bb`, core/ir_bb.c:76-88: all successors of `b` are moved to `n`. -/
def splitEdges (f : Fn) (b n : Nat) : Fn :=
  let old := f.succs b
  old.foldl (fun f s => connect (disconnect f b s) n s) (connect { f with succs := upd f.succs b [] } b n)

/-- `bpf_ir_split_bb`, core/ir_bb.c:71-109: the new block is `freshBb f`. -/
def split (f : Fn) (x : Nat) (pos : Pos) : Out Fn :=
  let b := f.parent x
  let n := freshBb f
  let f := splitEdges (newBb f) b n
  let l := f.body b
  let mv (hd tl : List Nat) : Out Fn :=
    if tl = [] then .err
    else .ok { f with body := upd (upd f.body b hd) n tl, parent := fun y => if y ∈ tl then n else f.parent y }
  match pos with
  | .front => mv (l.takeWhile (· != x)) (l.dropWhile (· != x))
  | .back => mv (l.takeWhile (· != x) ++ [x]) (l.dropWhile (· != x)).tail
  | _ => .err

/-- `bpf_ir_bb_create_error_block`, core/ir_bb.c:127-144: new block, error block, function. -/
def errorBlock (f : Fn) (x : Nat) (pos : Pos) : Out (Nat × Nat × Fn) := do
  let b := f.parent x
  let n := freshBb f
  let f ← split f x pos
  let e := freshBb f
  let f := createBb (newBb f) mkThrow e .back
  .ok (n, e, connect f b e)

/-- `bpf_ir_prev_insn`, core/ir_insn.c:301-308 -/
def prevInsn (f : Fn) (x : Nat) : Option Nat := ((f.body (f.parent x)).takeWhile (· != x)).getLast?

/-- `bpf_ir_next_insn`, core/ir_insn.c:310-317 -/
def nextInsn (f : Fn) (x : Nat) : Option Nat := ((f.body (f.parent x)).dropWhile (· != x)).tail.head?

end Verif.Edit
