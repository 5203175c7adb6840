import Verif.Base
/-!
# Model of the pointer hash set (core/ptrset.c)

Keys are 64-bit pointers.  A slot of `struct ptrset_entry` is `empty` (`occupy == 0`), `tomb`
(`occupy == -1`, the stale key is never read) or `full k` (`occupy == 1`).  `size` is the number of
slots.  `index` is a `u32`; the model uses naturals, which agrees as long as `size + 31 ≤ 2^32`.
-/
namespace Verif.PtrSet
open Verif

abbrev Key := BitVec 64

inductive Slot where
  | empty
  | tomb
  | full (k : Key)
  deriving Repr, DecidableEq

/-- `struct ptrset` (core/include/linux/bpf_ir.h): `set`, `size` (= number of slots), `cnt`. -/
structure PSet where
  slots : List Slot
  cnt : Nat
  deriving Repr, DecidableEq

/-- `#define STEP 31`, core/ptrset.c:6 -/
def STEP : Nat := 31

/-- `hash32_ptr`, core/include/linux/hash.h -/
def hash (k : Key) : Nat := ((k ^^^ (k >>> 32)).setWidth 32).toNat

/-- `bpf_ir_ptrset_init`, core/ptrset.c:9-14 -/
def init (size : Nat) : PSet := ⟨List.replicate size .empty, 0⟩

/-- The probe loop of `bpf_ir_ptrset_insert_raw`, core/ptrset.c:19-32. -/
def insertLoop (s : PSet) (k : Key) : (fuel index : Nat) → Out PSet
  | 0, _ => .crit
  | fuel + 1, index =>
    match s.slots[index]? with
    | none => .ub
    | some (.full k') =>
      if k' = k then .ok s
      else insertLoop s k fuel ((index + STEP) % s.slots.length)
    | some _ => .ok ⟨s.slots.set index (.full k), s.cnt + 1⟩

/-- `bpf_ir_ptrset_insert_raw`, core/ptrset.c:16-33; `% 0` is undefined. -/
def insertRaw (s : PSet) (k : Key) : Out PSet :=
  if s.slots.length = 0 then .ub
  else insertLoop s k s.slots.length (hash k % s.slots.length)

/-- The re-insertion loops over the slots of another table (core/ptrset.c:42-47, with `ins` the
insertion that is used). -/
def insertFull (ins : PSet → Key → Out PSet) : List Slot → PSet → Out PSet
  | [], t => .ok t
  | .full k :: ss, t => do let t' ← ins t k; insertFull ins ss t'
  | _ :: ss, t => insertFull ins ss t

/-- `bpf_ir_ptrset_insert`, core/ptrset.c:35-53 -/
def insert (s : PSet) (k : Key) : Out PSet := do
  let s' ← (if s.cnt ≥ s.slots.length then do
      let t ← insertFull insertRaw s.slots (init (s.slots.length * 2))
      Out.ok { s with slots := t.slots }
    else Out.ok s)
  insertRaw s' k

/-- The probe loop of `bpf_ir_ptrset_delete`, core/ptrset.c:58-73; the Boolean is "return value is 0". -/
def deleteLoop (s : PSet) (k : Key) : (fuel index : Nat) → Out (PSet × Bool)
  | 0, _ => .ok (s, false)
  | fuel + 1, index =>
    match s.slots[index]? with
    | none => .ub
    | some .empty => .ok (s, false)
    | some .tomb => deleteLoop s k fuel ((index + STEP) % s.slots.length)
    | some (.full k') =>
      if k' = k then .ok (⟨s.slots.set index .tomb, s.cnt - 1⟩, true)
      else deleteLoop s k fuel ((index + STEP) % s.slots.length)

/-- `bpf_ir_ptrset_delete`, core/ptrset.c:55-74 -/
def delete (s : PSet) (k : Key) : Out (PSet × Bool) :=
  if s.slots.length = 0 then .ub
  else deleteLoop s k s.slots.length (hash k % s.slots.length)

/-- The probe loop of `bpf_ir_ptrset_exists`, core/ptrset.c:79-92. -/
def existsLoop (s : PSet) (k : Key) : (fuel index : Nat) → Out Bool
  | 0, _ => .ok false
  | fuel + 1, index =>
    match s.slots[index]? with
    | none => .ub
    | some .empty => .ok false
    | some .tomb => existsLoop s k fuel ((index + STEP) % s.slots.length)
    | some (.full k') =>
      if k' = k then .ok true
      else existsLoop s k fuel ((index + STEP) % s.slots.length)

/-- `bpf_ir_ptrset_exists`, core/ptrset.c:76-93 -/
def «exists» (s : PSet) (k : Key) : Out Bool :=
  if s.slots.length = 0 then .ub
  else existsLoop s k s.slots.length (hash k % s.slots.length)

/-- `bpf_ir_ptrset_clean`, core/ptrset.c:107-114 -/
def clean (s : PSet) : PSet := ⟨s.slots.map (fun _ => .empty), 0⟩

/-- `bpf_ir_ptrset_next`, core/ptrset.c:126-141.  A cursor is a slot index; `start` is 0 for a NULL
cursor and `cursor + 1` otherwise. -/
def nextFrom (s : PSet) : (fuel start : Nat) → Option (Nat × Key)
  | 0, _ => none
  | fuel + 1, i =>
    match s.slots[i]? with
    | none => none
    | some (.full k) => some (i, k)
    | some _ => nextFrom s fuel (i + 1)

/-- `bpf_ir_ptrset_next` with its cursor argument. -/
def next (s : PSet) (cur : Option Nat) : Option (Nat × Key) :=
  match cur with
  | none => nextFrom s (s.slots.length + 1) 0
  | some c => nextFrom s (s.slots.length + 1) (c + 1)

/-- The `ptrset_for` loop (core/include/linux/bpf_ir.h): call `next` until it returns NULL,
collecting the keys. -/
def iterate (s : PSet) : (fuel : Nat) → Option Nat → List Key
  | 0, _ => []
  | fuel + 1, cur =>
    match next s cur with
    | none => []
    | some (c, k) => k :: iterate s fuel (some c)

/-- `bpf_ir_ptrset_union`, core/ptrset.c:143-159 -/
def union (a b : PSet) : Out PSet := do
  let r ← insertFull insert a.slots (init (a.cnt + b.cnt))
  insertFull insert b.slots r

/-- The filtering loop of `bpf_ir_ptrset_intersec`, core/ptrset.c:166-171. -/
def intersecLoop (b : PSet) : List Slot → PSet → Out PSet
  | [], t => .ok t
  | .full k :: ss, t => do
    let e ← «exists» b k
    if e then do
      let t' ← insert t k
      intersecLoop b ss t'
    else intersecLoop b ss t
  | _ :: ss, t => intersecLoop b ss t

/-- `bpf_ir_ptrset_intersec`, core/ptrset.c:161-173 -/
def intersec (a b : PSet) : Out PSet := intersecLoop b a.slots (init a.cnt)

/-- `bpf_ir_ptrset_clone`, core/ptrset.c:187-196 -/
def clone (s : PSet) : Out PSet := insertFull insert s.slots (init s.slots.length)

/-- `bpf_ir_ptrset_add`, core/ptrset.c:199-207 -/
def add (a b : PSet) : Out PSet := insertFull insert b.slots a

/-- `bpf_ir_ptrset_minus`, core/ptrset.c:210-217 (`a` loses the keys of the slots `bs`) -/
def minusLoop : List Slot → PSet → Out PSet
  | [], a => .ok a
  | .full k :: ss, a => do let (a', _) ← delete a k; minusLoop ss a'
  | _ :: ss, a => minusLoop ss a

def minus (a b : PSet) : Out PSet := minusLoop b.slots a

end Verif.PtrSet
