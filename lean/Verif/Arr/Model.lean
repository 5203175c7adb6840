import Verif.Base
/-!
# Model of the dynamic array (core/array.c)

`struct array` (core/include/linux/bpf_ir.h) is `data`, `num_elem`, `max_elem`, `elem_size`.
The buffer is modelled as a list of cells, `none` being an allocated but never written cell.
`elem_size` is abstracted: a cell holds one element.  Allocation succeeds.
`free_proto` is a no-op here.
-/
namespace Verif.Arr
open Verif

/-- `struct array`; `data = none` is the NULL pointer. -/
structure Arr (α : Type) where
  data : Option (List (Option α))
  num : Nat
  max : Nat
  deriving Repr, DecidableEq

variable {α : Type}

/-- `bpf_ir_array_init`, core/array.c:4-10 -/
def init : Arr α := ⟨none, 0, 0⟩

/-- A fresh allocation of `n` cells (`SAFE_MALLOC`). -/
def alloc (n : Nat) : List (Option α) := List.replicate n none

/-- Memory write of one element at index `i`; outside the allocation it is undefined behaviour. -/
def write (a : Arr α) (i : Nat) (v : Option α) : Out (Arr α) :=
  match a.data with
  | none => .ub
  | some b => if i < b.length then .ok { a with data := some (b.set i v) } else .ub

/-- Memory read of one element at index `i`. -/
def read (a : Arr α) (i : Nat) : Out (Option α) :=
  match a.data with
  | none => .ub
  | some b => if h : i < b.length then .ok b[i] else .ub

/-- `bpf_ir_array_push`, core/array.c:22-41.  The `memcpy` of line 32 copies `num_elem` cells; it
needs both buffers to be at least that long. -/
def push (a : Arr α) (v : α) : Out (Arr α) := do
  let a1 : Arr α := if a.data.isNone then { a with data := some (alloc 2), max := 2 } else a
  let a2 ← (if a1.num ≥ a1.max then
      match a1.data with
      | none => Out.ub
      | some b =>
        if a1.num ≤ b.length ∧ a1.num ≤ a1.max * 2 then
          Out.ok { a1 with data := some (b.take a1.num ++ alloc (a1.max * 2 - a1.num)),
                           max := a1.max * 2 }
        else Out.ub
    else Out.ok a1)
  let a3 ← write a2 a2.num (some v)
  Out.ok { a3 with num := a3.num + 1 }

/-- The `for`/`memcmp` scan of `bpf_ir_array_push_unique`, core/array.c:46-51. -/
def scanEq [DecidableEq α] (a : Arr α) (v : α) : (fuel i : Nat) → Out Bool
  | 0, _ => .ok false
  | fuel + 1, i =>
    if i < a.num then do
      let x ← read a i
      if x = some v then Out.ok true else scanEq a v fuel (i + 1)
    else .ok false

/-- `bpf_ir_array_push_unique`, core/array.c:43-53 -/
def pushUnique [DecidableEq α] (a : Arr α) (v : α) : Out (Arr α) := do
  let found ← scanEq a v a.num 0
  if found then Out.ok a else push a v

/-- The shifting loop of `bpf_ir_array_erase`, core/array.c:61-65. -/
def shift (a : Arr α) : (fuel i : Nat) → Out (Arr α)
  | 0, _ => .ok a
  | fuel + 1, i =>
    if i < a.num - 1 then do
      let x ← read a (i + 1)
      let a' ← write a i x
      shift a' fuel (i + 1)
    else .ok a

/-- `bpf_ir_array_erase`, core/array.c:55-67 -/
def erase (a : Arr α) (idx : Nat) : Out (Arr α) :=
  if idx ≥ a.num then .ok a
  else do
    let a' ← shift a a.num idx
    Out.ok { a' with num := a'.num - 1 }

/-- `bpf_ir_array_clear`, core/array.c:69-75 -/
def clear (_ : Arr α) : Arr α := ⟨some (alloc 4), 0, 4⟩

/-- `bpf_ir_array_clone`, core/array.c:78-90 -/
def clone (a : Arr α) : Out (Arr α) :=
  if a.num = 0 then .ok ⟨none, a.num, a.max⟩
  else
    match a.data with
    | none => .ub
    | some b =>
      if a.num ≤ b.length ∧ a.num ≤ a.max then
        .ok ⟨some (b.take a.num ++ alloc (a.max - a.num)), a.num, a.max⟩
      else .ub

/-- The `array_for` loop of `bpf_ir_array_merge`, core/array.c:97-102. -/
def mergeLoop [DecidableEq α] (b : Arr α) : (fuel i : Nat) → Arr α → Out (Arr α)
  | 0, _, a => .ok a
  | fuel + 1, i, a =>
    if i < b.num then do
      let x ← read b i
      match x with
      | none => Out.ub
      | some v =>
        let a' ← pushUnique a v
        mergeLoop b fuel (i + 1) a'
    else .ok a

/-- `bpf_ir_array_merge`, core/array.c:93-103 (merges `b` into `a`) -/
def merge [DecidableEq α] (a b : Arr α) : Out (Arr α) := mergeLoop b b.num 0 a

/-- `bpf_ir_array_free`, core/array.c:104-110.  The element size is reset to 0 by the C code; that is
not represented, so the model does not let `free`d arrays be reused without `init`. -/
def free (_ : Arr α) : Arr α := ⟨none, 0, 0⟩

/-- `bpf_ir_array_get_void`, core/array.c:112-118, followed by the dereference: `ok none` is the NULL
result, `ub` a non-NULL pointer that must not be dereferenced. -/
def get (a : Arr α) (i : Nat) : Out (Option α) :=
  if i ≥ a.num then .ok none
  else do
    let x ← read a i
    match x with
    | none => Out.ub
    | some v => Out.ok (some v)

end Verif.Arr
