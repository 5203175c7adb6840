import Verif.Edit.Model
/-!
# Model of the pass for ecalls (core/passes/ecall.c)

`rs` is `fun->reachable_bbs`.  `is_nonptr` calls itself; `k` bounds the depth of these calls, and going deeper is
undefined behaviour (the C stack overflows).  Errors of the editing functions are returned at once; the pass does not look
at them, but the pass manager does afterwards.
-/
namespace Verif.Ecall
open Verif Verif.IR Verif.Edit

/-- `is_nonptr`, core/passes/ecall.c:5-21 -/
def isNonptr (f : Fn) : Nat → Val → Out Bool
  | 0, _ => .ub
  | k + 1, .insn x =>
    if (f.insn x).op = .loadraw then .ok true
    else if (f.insn x).op.binAlu then
      match (f.insn x).vals with
      | [v, w] =>
        match isNonptr f k v with
        | .ok true => isNonptr f k w
        | r => r
      | _ => .ub
    else .ok false
  | _ + 1, _ => .ok true

/-- The conditions of both loops, core/passes/ecall.c:82-88, 135-141 -/
def onHeap (k : Nat) (f : Fn) (x : Nat) : Out Bool :=
  match (f.insn x).addr with
  | .insn y => isNonptr f k (.insn y)
  | _ => .ok false

/-- The address with the offset, core/passes/ecall.c:89-96: the instruction that holds it, and the function. -/
def addOff (f : Fn) (x : Nat) (v : Val) : Out (Val × Fn) :=
  if (f.insn x).addrOff = 0 then .ok (v, f)
  else do
    let g ← createAt f (mkBin .add .w64 v (const32 ((f.insn x).addrOff.signExtend 32))) x .front
    .ok (.insn f.next, g)

/-- The lookup in the map `m`, core/passes/ecall.c:98-114: the call, and the function. -/
def lookup (m : Nat) (f : Fn) (x : Nat) (v : Val) : Out (Nat × Fn) := do
  let a := f.next
  let f1 ← createAt f (mkAllocarray .t64 1) x .front
  let f2 ← createAt f1 (mkStoreraw .t64 (.insn a) 0 .plain v) x .front
  let p := f2.next
  let f3 ← createAt f2 (mkGetelemptr a (const32 0)) x .front
  let c := f3.next
  let f4 ← createAt f3 (mkCall 1) x .front
  let f5 ← addCallArg f4 c (.insn m)
  let f6 ← addCallArg f5 c (.insn p)
  .ok (c, f6)

/-- `insn->addr_val.offset = 0`, core/passes/ecall.c:118 -/
def clearOff (f : Fn) (x : Nat) : Fn := { f with insn := upd f.insn x { f.insn x with addrOff := 0 } }

/-- One load, core/passes/ecall.c:89-127 -/
def heapLoad (m : Nat) (f : Fn) (x : Nat) : Out Fn := do
  let r ← addOff f x (f.insn x).addr
  let s ← lookup m r.2 x r.1
  let f1 ← changeValue s.2 x .addr (.insn s.1)
  let t ← errorBlock (clearOff f1 x) s.1 .back
  createAt t.2.2 (mkJbin .jeq .w64 (.insn s.1) (const32 0) t.1 t.2.1) s.1 .back

/-- One store, core/passes/ecall.c:142-148 -/
def heapStore (m : Nat) (f : Fn) (x : Nat) : Out Fn := do
  let g ← createAt f (mkBin .add .w64 (.insn m) (f.insn x).addr) x .front
  changeValue g x .addr (.insn f.next)

/-- One round of a loop, core/passes/ecall.c:77-128, 130-149 -/
def heapOne (k : Nat) (r : Fn → Nat → Out Fn) (f : Fn) (x : Nat) : Out Fn := do
  let t ← onHeap k f x
  match t with
  | true => r f x
  | false => .ok f

/-- A loop, core/passes/ecall.c:77-128, 130-149 -/
def heapAll (k : Nat) (r : Fn → Nat → Out Fn) : List Nat → Fn → Out Fn
  | [], f => .ok f
  | x :: xs, f => do
    let g ← heapOne k r f x
    heapAll k r xs g

/-- The instructions with operation `o`, core/passes/ecall.c:56-74 -/
def collect (o : Op) (rs : List Nat) (f : Fn) : List Nat := rs.flatMap fun b => (f.body b).filter fun x => (f.insn x).op = o

/-- `translate_heap`, core/passes/ecall.c:23-153 -/
def translateHeap (k : Nat) (rs : List Nat) (f : Fn) (e : Nat) : Out Fn :=
  match (f.insn e).vals with
  | [.insn m, .const .plain _ _ _] => do
    let f1 ← erase f e
    let f2 ← heapAll k (heapLoad m) (collect .loadraw rs f1) f1
    heapAll k (heapStore m) (collect .storeraw rs f1) f2
  | _ => .err

/-- The first ecall 0 and what is behind it. -/
def findEcall (f : Fn) : List Nat → Option (Nat × List Nat)
  | [] => none
  | x :: r => if (f.insn x).op = .ecall ∧ (f.insn x).aux = 0 then some (x, r) else findEcall f r

/-- The loop over the block `b`, core/passes/ecall.c:170-180; `l` is what is left of it.  The instruction behind the ecall has been noted before; if it
is in another block afterwards, the loop follows the list of that block, whose end it does not recognize.  Every round erases an ecall, so there are no
more rounds than instructions. -/
def walk (k : Nat) (rs : List Nat) (b : Nat) : Nat → Fn → List Nat → Out Fn
  | 0, _, _ => .ub
  | n + 1, f, l =>
    match findEcall f l with
    | none => .ok f
    | some (x, []) => translateHeap k rs f x
    | some (x, y :: _) => do
      let g ← translateHeap k rs f x
      if g.parent y = b then walk k rs b n g ((g.body b).dropWhile (· != y)) else .ub

/-- The loop over the blocks, core/passes/ecall.c:166-181 -/
def handleAll (k : Nat) (rs : List Nat) : List Nat → Fn → Out Fn
  | [], f => .ok f
  | b :: bs, f => do
    let g ← walk k rs b ((f.body b).length + 1) f (f.body b)
    handleAll k rs bs g

/-- `bpf_ir_handle_ecalls`, core/passes/ecall.c:162-182 -/
def handleEcalls (k : Nat) (rs : List Nat) (f : Fn) : Out Fn := handleAll k rs rs f

end Verif.Ecall
