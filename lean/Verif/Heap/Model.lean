import Verif.Base
/-!
# Model of the memory of a function (core/array.c, core/ir_insn.c, core/ir_bb.c, core/bpf_ir.c:1523-1555)

What is allocated and freed while a function is edited, and by `bpf_ir_free_function`.

Simplifications
* Allocation succeeds, and an address that was freed is not handed out again, so that freeing twice shows.
* Freeing memory that is not allocated is `ub`.  An editing function that is given an instruction or block that the function does not have ends in `crit`
  (that no operand and no list of users leads to such an instruction is C21-C23).
* The order of the instructions in a block does not matter here: an instruction carries its block (`home`).  Lists are those of C72.
* The values of an instruction are those that are instructions (`some p`) and others (`none`); the address of a memory access is one of them.
-/
namespace Verif.Heap
open Verif

abbrev Ptr := Nat

/-- The allocated memory. -/
structure Heap where
  live : List Ptr
  next : Ptr
  deriving Repr, DecidableEq

/-- `malloc_proto`, core/lli.c -/
def Heap.malloc (h : Heap) : Ptr × Heap := (h.next, ⟨h.next :: h.live, h.next + 1⟩)

/-- `free_proto`, core/lli.c -/
def Heap.free (h : Heap) (p : Ptr) : Out Heap := if p ∈ h.live then .ok { h with live := h.live.erase p } else .ub

/-! ## Arrays, core/array.c -/

/-- `struct array`: the memory, `max_elem` and the elements. -/
structure Arr (α : Type) where
  data : Option Ptr
  cap : Nat
  elems : List α
  deriving Repr, DecidableEq

/-- `bpf_ir_array_init`, core/array.c:4-10 -/
def Arr.init {α : Type} : Arr α := ⟨none, 0, []⟩

/-- The first half of `bpf_ir_array_push`, core/array.c:24-27 -/
def Arr.fit {α : Type} (h : Heap) (a : Arr α) : Heap × Ptr × Nat :=
  match a.data with
  | some p => (h, p, a.cap)
  | none => let r := h.malloc; (r.2, r.1, 2)

/-- `bpf_ir_array_push`, core/array.c:22-41 -/
def Arr.push {α : Type} (h : Heap) (a : Arr α) (x : α) : Out (Heap × Arr α) :=
  let r := a.fit h
  if a.elems.length ≥ r.2.2 then do
    let n := r.1.malloc
    let h ← n.2.free r.2.1
    .ok (h, ⟨some n.1, r.2.2 * 2, a.elems ++ [x]⟩)
  else .ok (r.1, ⟨some r.2.1, r.2.2, a.elems ++ [x]⟩)

/-- `bpf_ir_array_push_unique`, core/array.c:43-53 -/
def Arr.pushUnique {α : Type} [DecidableEq α] (h : Heap) (a : Arr α) (x : α) : Out (Heap × Arr α) :=
  if x ∈ a.elems then .ok (h, a) else a.push h x

/-- Pushing several elements. -/
def Arr.pushAll {α : Type} : Heap → Arr α → List α → Out (Heap × Arr α)
  | h, a, [] => .ok (h, a)
  | h, a, x :: xs => do
    let r ← a.push h x
    Arr.pushAll r.1 r.2 xs

/-- `bpf_ir_array_erase`, core/array.c:55-67, of the first element that is equal to `x` -/
def Arr.remove {α : Type} [DecidableEq α] (a : Arr α) (x : α) : Arr α := { a with elems := a.elems.erase x }

/-- `free_proto` of a pointer that may be `NULL` -/
def freeOpt (h : Heap) : Option Ptr → Out Heap
  | none => .ok h
  | some p => h.free p

/-- `bpf_ir_array_clear`, core/array.c:69-75 -/
def Arr.clear {α : Type} (h : Heap) (a : Arr α) : Out (Heap × Arr α) := do
  let h ← freeOpt h a.data
  let n := h.malloc
  .ok (n.2, ⟨some n.1, 4, []⟩)

/-- `bpf_ir_array_free`, core/array.c:104-110 -/
def Arr.free {α : Type} (h : Heap) (a : Arr α) : Out Heap := freeOpt h a.data

/-! ## Functions -/

/-- Where an instruction is: in the list of a block, or one of `function_arg`, or `sp`. -/
inductive Home where
  | block (b : Ptr)
  | arg (n : Nat)
  | sp
  deriving Repr, DecidableEq

/-- `struct ir_insn`; `phi` is there for `IR_INSN_PHI`. -/
structure Insn where
  self : Ptr
  home : Home
  users : Arr Ptr
  vals : List (Option Ptr)
  phi : Option (Arr (Option Ptr))
  deriving Repr, DecidableEq

/-- `struct ir_basic_block` -/
structure Block where
  self : Ptr
  preds : Arr Ptr
  succs : Arr Ptr
  deriving Repr, DecidableEq

/-- `struct ir_function` -/
structure Fn where
  self : Ptr
  insns : List Insn
  blocks : List Block
  all : Arr Ptr
  reach : Arr Ptr
  ends : Arr Ptr
  deriving Repr, DecidableEq

structure St where
  h : Heap
  f : Fn
  deriving Repr, DecidableEq

/-- The instruction at an address and the others. -/
def takeInsn (p : Ptr) : List Insn → Option (Insn × List Insn)
  | [] => none
  | i :: is => if i.self = p then some (i, is) else (takeInsn p is).map (fun r => (r.1, i :: r.2))

/-- The block at an address and the others. -/
def takeBlock (p : Ptr) : List Block → Option (Block × List Block)
  | [] => none
  | b :: bs => if b.self = p then some (b, bs) else (takeBlock p bs).map (fun r => (r.1, b :: r.2))

/-- Change the instruction at `p`. -/
def onInsn (p : Ptr) (g : Heap → Insn → Out (Heap × Insn)) (s : St) : Out St :=
  match takeInsn p s.f.insns with
  | none => .crit
  | some (i, is) => do
    let r ← g s.h i
    .ok ⟨r.1, { s.f with insns := r.2 :: is }⟩

/-- Change the block at `p`. -/
def onBlock (p : Ptr) (g : Heap → Block → Out (Heap × Block)) (s : St) : Out St :=
  match takeBlock p s.f.blocks with
  | none => .crit
  | some (b, bs) => do
    let r ← g s.h b
    .ok ⟨r.1, { s.f with blocks := r.2 :: bs }⟩

/-! ## Instructions, core/ir_insn.c -/

/-- `bpf_ir_val_add_user`, core/ir_insn.c:291-300 -/
def addUser (v : Option Ptr) (u : Ptr) (s : St) : Out St :=
  match v with
  | none => .ok s
  | some p => onInsn p (fun h i => do
      let r ← i.users.push h u
      .ok (r.1, { i with users := r.2 })) s

/-- `bpf_ir_val_remove_user`, core/ir_insn.c:271-286 -/
def removeUser (v : Option Ptr) (u : Ptr) (s : St) : Out St :=
  match v with
  | none => .ok s
  | some p => onInsn p (fun h i => .ok (h, { i with users := i.users.remove u })) s

/-- `g` for every element. -/
def each {α : Type} (g : α → St → Out St) : List α → St → Out St
  | [], s => .ok s
  | x :: xs, s => do
    let s ← g x s
    each g xs s

/-- The functions that create an instruction: `bpf_ir_create_insn_base`, core/ir_insn.c:5-18, the operands, and for phis the array
(`create_phi_insn_base`, 708-715). -/
def createInsn (b : Ptr) (vals : List (Option Ptr)) (phi : Bool) (s : St) : Out St :=
  match takeBlock b s.f.blocks with
  | none => .crit
  | some _ =>
    let n := s.h.malloc
    each (fun v => addUser v n.1) vals
      ⟨n.2, { s.f with insns := ⟨n.1, .block b, .init, vals, if phi then some .init else none⟩ :: s.f.insns }⟩

/-- `bpf_ir_phi_add_operand`, core/ir_insn.c:351-360 -/
def phiAddOperand (p : Ptr) (v : Option Ptr) (s : St) : Out St := do
  let s ← onInsn p (fun h i =>
    match i.phi with
    | none => .crit
    | some a => do
      let r ← a.push h v
      .ok (r.1, { i with phi := some r.2 })) s
  addUser v p s

/-- The operands of an instruction. -/
def Insn.operands (i : Insn) : List (Option Ptr) := i.vals ++ (i.phi.map Arr.elems).getD []

/-- `bpf_ir_get_operands`, core/ir_insn.c:134-158: an array of its own -/
def getOperands (i : Insn) (h : Heap) : Out (Heap × Arr (Option Ptr)) := Arr.pushAll h .init i.operands

/-- `bpf_ir_erase_insn`, core/ir_insn.c:166-199 -/
def eraseInsn (p : Ptr) (s : St) : Out St :=
  match takeInsn p s.f.insns with
  | none => .crit
  | some (i, _) =>
    if i.users.elems.any (· != p) then .err
    else do
      let r ← getOperands i s.h
      let s ← each (fun v => removeUser v p) r.2.elems ⟨r.1, s.f⟩
      let h ← r.2.free s.h
      match takeInsn p s.f.insns with
      | none => .crit
      | some (i, is) => do
        let h ← i.users.free h
        let h ← h.free p
        .ok ⟨h, { s.f with insns := is }⟩

/-- The replacement of an operand. -/
def swapVal (p : Ptr) (rep v : Option Ptr) : Option Ptr := if v = some p then rep else v

/-- One user in `bpf_ir_replace_all_usage`, core/ir_insn.c:84-98 -/
def replaceIn (p : Ptr) (rep : Option Ptr) (u : Ptr) (s : St) : Out St :=
  match takeInsn u s.f.insns with
  | none => .crit
  | some (i, is) => do
    let r ← getOperands i s.h
    let j := { i with vals := i.vals.map (swapVal p rep), phi := i.phi.map (fun a => { a with elems := a.elems.map (swapVal p rep) }) }
    let s ← each (fun _ => addUser rep u) (r.2.elems.filter (· = some p)) ⟨r.1, { s.f with insns := j :: is }⟩
    let h ← r.2.free s.h
    .ok { s with h := h }

/-- `bpf_ir_replace_all_usage`, core/ir_insn.c:77-100 -/
def replaceAll (p : Ptr) (rep : Option Ptr) (s : St) : Out St :=
  match takeInsn p s.f.insns with
  | none => .crit
  | some (i, is) => do
    let s ← each (replaceIn p rep) i.users.elems { s with f := { s.f with insns := { i with users := .init } :: is } }
    let h ← i.users.free s.h
    .ok { s with h := h }

/-! ## Blocks, core/ir_bb.c -/

/-- `bpf_ir_create_bb`, core/ir_bb.c:20-45; the result also has the address. -/
def createBb (s : St) : Out (Ptr × St) := do
  let n := s.h.malloc
  let r ← s.f.all.push n.2 n.1
  .ok (n.1, ⟨r.1, { s.f with blocks := ⟨n.1, .init, .init⟩ :: s.f.blocks, all := r.2 }⟩)

/-- `bpf_ir_connect_bb`, core/ir_bb.c:47-52 -/
def connect (a b : Ptr) (s : St) : Out St := do
  let s ← onBlock a (fun h x => do
    let r ← x.succs.pushUnique h b
    .ok (r.1, { x with succs := r.2 })) s
  onBlock b (fun h x => do
    let r ← x.preds.pushUnique h a
    .ok (r.1, { x with preds := r.2 })) s

/-- `bpf_ir_disconnect_bb`, core/ir_bb.c:54-69 -/
def disconnect (a b : Ptr) (s : St) : Out St := do
  let s ← onBlock a (fun h x => .ok (h, { x with succs := x.succs.remove b })) s
  onBlock b (fun h x => .ok (h, { x with preds := x.preds.remove a })) s

/-- `bpf_ir_split_bb`, core/ir_bb.c:71-107; `moved` are the instructions from the place of the split on.  The result also has the new block. -/
def splitBb (b : Ptr) (moved : List Ptr) (s : St) : Out (Ptr × St) := do
  let n ← createBb s
  match takeBlock b n.2.f.blocks with
  | none => .crit
  | some (x, bs) => do
    let s ← connect b n.1 { n.2 with f := { n.2.f with blocks := { x with succs := .init } :: bs } }
    let s ← each (fun y s => do
      let s ← disconnect b y s
      connect n.1 y s) x.succs.elems s
    let h ← x.succs.free s.h
    if moved = [] then .err
    else .ok (n.1, ⟨h, { s.f with insns := s.f.insns.map (fun i => if i.home = .block b ∧ i.self ∈ moved then { i with home := .block n.1 } else i) }⟩)

/-- `bpf_ir_bb_create_error_block`, core/ir_bb.c:125-143 -/
def createErrorBlock (b : Ptr) (moved : List Ptr) (s : St) : Out St := do
  let r ← splitBb b moved s
  let e ← createBb r.2
  let s ← createInsn e.1 [] false e.2
  connect b e.1 s

/-- `gen_reachable_bbs` and `gen_end_bbs`, core/bpf_ir.c:1664-1761: `todo` is what goes through the queue, `R` and `E` are the
blocks that are found (C08); blocks that the function does not have are excluded by `crit`. -/
def genReach (todo R E : List Ptr) (s : St) : Out St :=
  if R.Nodup ∧ ∀ b ∈ R, b ∈ s.f.blocks.map (·.self) then do
    let c ← s.f.reach.clear s.h
    let t ← Arr.pushAll c.1 (.init : Arr Ptr) todo
    let r ← Arr.pushAll t.1 c.2 R
    let h ← t.2.free r.1
    let c ← s.f.ends.clear h
    let e ← Arr.pushAll c.1 c.2 E
    .ok ⟨e.1, { s.f with reach := r.2, ends := e.2 }⟩
  else .crit

/-! ## Freeing -/

/-- One instruction in `bpf_ir_free_function`, core/bpf_ir.c:1534-1540 -/
def freeInsn (h : Heap) (i : Insn) : Out Heap := do
  let h ← i.users.free h
  let h ← (match i.phi with
    | some a => a.free h
    | none => .ok h)
  h.free i.self

def freeInsns : Heap → List Insn → Out Heap
  | h, [] => .ok h
  | h, i :: is => do
    let h ← freeInsn h i
    freeInsns h is

/-- The instructions of a block. -/
def Insn.isIn (b : Ptr) (i : Insn) : Bool := i.home == .block b

/-- The loop of `bpf_ir_free_function`, core/bpf_ir.c:1526-1543: the instructions and blocks that are left -/
def freeBlocks : List Ptr → St → Out St
  | [], s => .ok s
  | b :: bs, s =>
    match takeBlock b s.f.blocks with
    | none => .ub
    | some (x, xs) => do
      let h ← x.preds.free s.h
      let h ← x.succs.free h
      let h ← freeInsns h (s.f.insns.filter (Insn.isIn b))
      let h ← h.free b
      freeBlocks bs ⟨h, { s.f with blocks := xs, insns := s.f.insns.filter (fun i => !i.isIn b) }⟩

/-- The arguments and the stack pointer. -/
def Insn.isFix (i : Insn) : Bool :=
  match i.home with
  | .block _ => false
  | _ => true

/-- `bpf_ir_free_function`, core/bpf_ir.c:1523-1555 (arguments and `sp` are no phis) -/
def freeFunction (s : St) : Out Heap := do
  let s ← freeBlocks s.f.reach.elems s
  let h ← freeInsns s.h (s.f.insns.filter Insn.isFix)
  let h ← s.f.all.free h
  let h ← s.f.reach.free h
  s.f.ends.free h

/-! ## Histories -/

/-- One call of the editing interface. -/
inductive Edit where
  | insn (b : Ptr) (vals : List (Option Ptr)) (phi : Bool)
  | operand (p : Ptr) (v : Option Ptr)
  | erase (p : Ptr)
  | replace (p : Ptr) (rep : Option Ptr)
  | block
  | connect (a b : Ptr)
  | disconnect (a b : Ptr)
  | split (b : Ptr) (moved : List Ptr)
  | error (b : Ptr) (moved : List Ptr)
  | process (todo R E : List Ptr)
  deriving Repr, DecidableEq

def step : Edit → St → Out St
  | .insn b vals phi, s => createInsn b vals phi s
  | .operand p v, s => phiAddOperand p v s
  | .erase p, s => eraseInsn p s
  | .replace p rep, s => replaceAll p rep s
  | .block, s => do
    let r ← createBb s
    .ok r.2
  | .connect a b, s => Verif.Heap.connect a b s
  | .disconnect a b, s => Verif.Heap.disconnect a b s
  | .split b moved, s => do
    let r ← splitBb b moved s
    .ok r.2
  | .error b moved, s => createErrorBlock b moved s
  | .process todo R E, s => genReach todo R E s

def run : List Edit → St → Out St
  | [], s => .ok s
  | e :: es, s => do
    let s ← step e s
    run es s

end Verif.Heap
