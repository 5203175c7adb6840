import Verif.Edit.Model
/-!
# Model of the linked lists of instructions (core/include/linux/list.h, core/ir_insn.c:196-317, core/ir_bb.c)

A node is the `list_head` inside a block or an instruction.  `list_entry` and `&insn->list_ptr` only go between an instruction and its node and are left out.  Reading or writing a node that is not in
allocated memory is `ub`; so is a loop that has not come to its end after the given number of rounds.
-/
namespace Verif.Links
open Verif Verif.IR Verif.Edit

/-- Pointers to nodes. -/
inductive Ptr where
  | head (b : Nat)
  | insn (x : Nat)
  | poison1
  | poison2
  deriving DecidableEq

/-- The nodes in memory. -/
structure Heap where
  next : Ptr → Ptr
  prev : Ptr → Ptr
  live : Ptr → Bool

/-- Change at one place. -/
def set {α : Type} (f : Ptr → α) (k : Ptr) (v : α) : Ptr → α := fun j => if j = k then v else f j

/-- `p->next` -/
def rdNext (h : Heap) (p : Ptr) : Out Ptr := if h.live p then .ok (h.next p) else .ub

/-- `p->prev` -/
def rdPrev (h : Heap) (p : Ptr) : Out Ptr := if h.live p then .ok (h.prev p) else .ub

/-- `p->next = q` -/
def wrNext (h : Heap) (p q : Ptr) : Out Heap := if h.live p then .ok { h with next := set h.next p q } else .ub

/-- `p->prev = q` -/
def wrPrev (h : Heap) (p q : Ptr) : Out Heap := if h.live p then .ok { h with prev := set h.prev p q } else .ub

/-- `malloc_proto` of the block or instruction -/
def malloc (h : Heap) (p : Ptr) : Heap := { h with live := set h.live p true }

/-- `free_proto` of the block or instruction -/
def free (h : Heap) (p : Ptr) : Heap := { h with live := set h.live p false }

/-! ## list.h -/

/-- `INIT_LIST_HEAD`, core/include/linux/list.h:50-54 -/
def init (h : Heap) (p : Ptr) : Out Heap := do
  let h ← wrNext h p p
  wrPrev h p p

/-- `__list_add`, core/include/linux/list.h:62-69 -/
def addBetween (h : Heap) (new prev next : Ptr) : Out Heap := do
  let h ← wrPrev h next new
  let h ← wrNext h new next
  let h ← wrPrev h new prev
  wrNext h prev new

/-- `list_add`, core/include/linux/list.h:79-82 -/
def add (h : Heap) (new at_ : Ptr) : Out Heap := do
  let n ← rdNext h at_
  addBetween h new at_ n

/-- `list_add_tail`, core/include/linux/list.h:92-95 -/
def addTail (h : Heap) (new at_ : Ptr) : Out Heap := do
  let p ← rdPrev h at_
  addBetween h new p at_

/-- `list_del` with `__list_del`, core/include/linux/list.h:104-121 -/
def del (h : Heap) (e : Ptr) : Out Heap := do
  let p ← rdPrev h e
  let n ← rdNext h e
  let h ← wrPrev h n p
  let h ← wrNext h p n
  let h ← wrNext h e .poison1
  wrPrev h e .poison2

/-- `list_empty`, core/include/linux/list.h:160-163; `bpf_ir_bb_empty`, core/ir_bb.c:14-17 -/
def empty (h : Heap) (hd : Ptr) : Out Bool := do
  let n ← rdNext h hd
  .ok (n == hd)

/-- `list_for_each`, `list_for_each_entry`, core/include/linux/list.h:220-221, 261-264, from the node `p` on: `body` is what is done with a node, `heap` the nodes in a state. -/
def each {σ : Type} (heap : σ → Heap) (hd : Ptr) (body : Ptr → σ → Out σ) : Nat → Ptr → σ → Out σ
  | 0, _, _ => .ub
  | k + 1, p, s =>
    if p = hd then .ok s
    else do
      let s ← body p s
      let q ← rdNext (heap s) p
      each heap hd body k q s

/-- The whole loop. -/
def forEach {σ : Type} (heap : σ → Heap) (hd : Ptr) (body : Ptr → σ → Out σ) (k : Nat) (s : σ) : Out σ := do
  let p ← rdNext (heap s) hd
  each heap hd body k p s

/-- `list_for_each_safe`, `list_for_each_entry_safe`, core/include/linux/list.h:251-253, 306-310: the next node is read in advance. -/
def eachSafe {σ : Type} (heap : σ → Heap) (hd : Ptr) (body : Ptr → σ → Out σ) : Nat → Ptr → Ptr → σ → Out σ
  | 0, _, _, _ => .ub
  | k + 1, p, n, s =>
    if p = hd then .ok s
    else do
      let s ← body p s
      let n' ← rdNext (heap s) n
      eachSafe heap hd body k n n' s

/-- The whole loop. -/
def forEachSafe {σ : Type} (heap : σ → Heap) (hd : Ptr) (body : Ptr → σ → Out σ) (k : Nat) (s : σ) : Out σ := do
  let p ← rdNext (heap s) hd
  let n ← rdNext (heap s) p
  eachSafe heap hd body k p n s

/-! ## Blocks and instructions -/

/-- `insn->op`; behind the head of a list there is no instruction. -/
def opOf (op : Nat → Op) : Ptr → Out Op
  | .insn x => .ok (op x)
  | _ => .ub

/-- `bpf_ir_get_last_insn`, core/ir_bb.c:111-117 -/
def lastInsn (h : Heap) (b : Nat) : Out (Option Ptr) := do
  if (← empty h (.head b)) then .ok none
  else do
    let p ← rdPrev h (.head b)
    .ok (some p)

/-- `bpf_ir_get_first_insn`, core/ir_bb.c:119-125 -/
def firstInsn (h : Heap) (b : Nat) : Out (Option Ptr) := do
  if (← empty h (.head b)) then .ok none
  else do
    let p ← rdNext h (.head b)
    .ok (some p)

/-- `bpf_ir_bb_len`, core/ir_bb.c:4-12 -/
def bbLen (h : Heap) (b : Nat) (k : Nat) : Out Nat := do
  let s ← forEach (·.1) (.head b) (fun _ s => .ok (s.1, s.2 + 1)) k (h, 0)
  .ok s.2

/-- `bpf_ir_prev_insn`, core/ir_insn.c:301-308 -/
def prevInsn (h : Heap) (x b : Nat) : Out (Option Ptr) := do
  let p ← rdPrev h (.insn x)
  .ok (if p = .head b then none else some p)

/-- `bpf_ir_next_insn`, core/ir_insn.c:310-317 -/
def nextInsn (h : Heap) (x b : Nat) : Out (Option Ptr) := do
  let p ← rdNext h (.insn x)
  .ok (if p = .head b then none else some p)

/-- The loop over the phis, core/ir_insn.c:256-261, which is left with `break` or at the head of the list. -/
def seek (op : Nat → Op) (h : Heap) (hd : Ptr) : Nat → Ptr → Out Ptr
  | 0, _ => .ub
  | k + 1, p =>
    if p = hd then .ok p
    else do
      let o ← opOf op p
      if o ≠ .phi then .ok p
      else do
        let q ← rdNext h p
        seek op h hd k q

/-- `bpf_ir_insert_at_bb`, core/ir_insn.c:229-270.  Behind the loop the variable is never null. -/
def insertAtBb (op : Nat → Op) (h : Heap) (x b k : Nat) : Pos → Out Heap
  | .back => addTail h (.insn x) (.head b)
  | .front => add h (.insn x) (.head b)
  | .backBeforeJmp => do
    match ← lastInsn h b with
    | some a => do
      let o ← opOf op a
      if isJmp o then addTail h (.insn x) a else addTail h (.insn x) (.head b)
    | none => addTail h (.insn x) (.head b)
  | .frontAfterPhi => do
    let p ← rdNext h (.head b)
    let a ← seek op h (.head b) k p
    addTail h (.insn x) a

/-- `bpf_ir_insert_at`, core/ir_insn.c:212-227; `b` is `insn->parent_bb` of the instruction `a`. -/
def insertAt (op : Nat → Op) (h : Heap) (x a b k : Nat) (pos : Pos) : Out Heap :=
  if op a = .phi ∧ op x ≠ .phi then insertAtBb op h x b k .frontAfterPhi
  else
    match pos with
    | .back => add h (.insn x) (.insn a)
    | .front => addTail h (.insn x) (.insn a)
    | _ => .crit

/-- The end of `bpf_ir_erase_insn`, core/ir_insn.c:196-198 (and of `bpf_ir_erase_insn_norm` and `bpf_ir_erase_insn_cg`) -/
def eraseInsn (h : Heap) (x : Nat) : Out Heap := do
  let h ← del h (.insn x)
  .ok (free h (.insn x))

/-- The block of `bpf_ir_create_bb`, core/ir_bb.c:20-45 -/
def createHead (h : Heap) (n : Nat) : Out Heap := init (malloc h (.head n)) (.head n)

/-- The loop of `bpf_ir_split_bb`, core/ir_bb.c:101-107 -/
def move (hd new : Ptr) : Nat → Heap → Ptr → Out Heap
  | 0, _, _ => .ub
  | k + 1, h, p =>
    if p = hd then .ok h
    else do
      let q ← rdNext h p
      let h ← del h p
      let h ← addTail h p new
      move hd new k h q

/-- The lists in `bpf_ir_split_bb`, core/ir_bb.c:71-109: from the block `b` of `x` to the new block `n`. -/
def splitAt (h : Heap) (x b n k : Nat) (pos : Pos) : Out Heap := do
  let h ← createHead h n
  let p ← (match pos with
    | .front => .ok (.insn x)
    | .back => rdNext h (.insn x)
    | _ => .err)
  if p = .head b then .err else move (.head b) (.head n) k h p

end Verif.Links
