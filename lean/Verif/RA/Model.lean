import Verif.Base
/-!
# Model of the register allocator (core/ir_cg.c), graph part

Values are numbered by naturals.  The pointer sets `adj`, `all_var` and the cliques of `pre_spill` are duplicate
free lists; the iteration order of the hash tables is the order of the list, and the theorems hold for every
order.  `lambda` and `w` are `u32` in the code and naturals here (they are bounded by the number of values).
Logging is left out.
-/
namespace Verif.RA
open Verif

/-- `struct ir_vr_pos`, core/include/linux/bpf_ir.h (`spilled == 0` means: in a register). -/
structure VrPos where
  allocated : Bool := false
  reg : Nat := 0
  spilled : Int := 0
  size : Nat := 0
  deriving Repr, DecidableEq, Inhabited

/-- `struct ir_insn_cg_extra`, core/include/ir_cg.h:89-112 (without `dst`, `in`, `out`). -/
structure Extra where
  pos : VrPos := {}
  fin : Bool := false
  nonvr : Bool := false
  lambda : Nat := 0
  w : Nat := 0
  adj : List Nat := []
  deriving Repr, DecidableEq, Inhabited

/-- The data of the allocator: `insn_cg` of every value, `cg_info(fun)->regs`, `all_var`, `seo`. -/
structure St where
  cg : Nat → Extra
  regs : Nat → Nat
  allVar : List Nat
  seo : List Nat

/-- `RA_COLORS`, core/include/ir_cg.h:12 -/
def colors : Nat := 10

/-- Change the data of one value. -/
def St.upd (s : St) (v : Nat) (f : Extra → Extra) : St :=
  { s with cg := fun x => if x = v then f (s.cg x) else s.cg x }

/-- `bpf_ir_ptrset_insert` on an adjacency set. -/
def ins (l : List Nat) (x : Nat) : List Nat := if x ∈ l then l else l ++ [x]

/-- The vertex that stands for a value in the graph, core/ir_cg.c:406-432: nothing for a value on the stack, the
machine register for a pre-coloured value. -/
def rep (s : St) (v : Nat) : Out (Option Nat) :=
  let e := s.cg v
  if e.pos.allocated then
    if !e.fin then .crit
    else if e.pos.spilled ≠ 0 then .ok none
    else if e.pos.reg < colors then .ok (some (s.regs e.pos.reg)) else .ub
  else if e.fin then .crit else .ok (some v)

/-- core/ir_cg.c:433-434 -/
def addEdge (s : St) (a b : Nat) : St :=
  let s1 := s.upd a (fun e => { e with adj := ins e.adj b })
  s1.upd b (fun e => { e with adj := ins e.adj a })

/-- `make_conflict`, core/ir_cg.c:399-435 -/
def makeConflict (s : St) (v1 v2 : Nat) : Out St :=
  if v1 = v2 then .crit
  else match rep s v1 with
    | .ok none => .ok s
    | .ok (some r1) =>
      match rep s v2 with
      | .ok none => .ok s
      | .ok (some r2) => .ok (addEdge s r1 r2)
      | .err => .err
      | .crit => .crit
      | .ub => .ub
    | .err => .err
    | .crit => .crit
    | .ub => .ub

/-- A sequence of calls of `make_conflict`, in the order they are made. -/
def conflicts : List (Nat × Nat) → St → Out St
  | [], s => .ok s
  | (a, b) :: l, s => do
    let s' ← makeConflict s a b
    conflicts l s'

/-- The calls of `make_conflict` between machine registers, core/ir_cg.c:735-741. -/
def regPairs (s : St) : List (Nat × Nat) :=
  (List.range colors).flatMap fun i =>
    ((List.range colors).filter (i < ·)).map fun j => (s.regs i, s.regs j)

/-- `caller_constraint`, core/ir_cg.c:722-729 -/
def callerPairs (s : St) (v : Nat) : List (Nat × Nat) := (List.range 6).map fun i => (s.regs i, v)

/-! ## Elimination order -/

/-- The selection loop of `mcs`, core/ir_cg.c:801-810: the last vertex of largest `lambda`. -/
def pickMax (key : Nat → Nat) (ok : Nat → Bool) : List Nat → (Nat × Option Nat) → (Nat × Option Nat)
  | [], acc => acc
  | v :: l, acc => pickMax key ok l (if ok v && decide (acc.1 ≤ key v) then (key v, some v) else acc)

/-- core/ir_cg.c:818-825 -/
def bumpLambda (rest : List Nat) : List Nat → St → St
  | [], s => s
  | u :: l, s => bumpLambda rest l (if u ∈ rest then s.upd u (fun e => { e with lambda := e.lambda + 1 }) else s)

/-- The main loop of `mcs`, core/ir_cg.c:800-828; `n` iterations, `rest` is `allvar`. -/
def mcsLoop : Nat → List Nat → St → Out St
  | 0, _, s => .ok s
  | n + 1, rest, s =>
    match (pickMax (fun v => (s.cg v).lambda) (fun _ => true) rest (0, none)).2 with
    | none => .crit
    | some v =>
      let s1 := { s with seo := s.seo ++ [v] }
      let s2 := bumpLambda rest (s1.cg v).adj s1
      mcsLoop n (rest.filter (· ≠ v)) s2

/-- `mcs`, core/ir_cg.c:793-831 -/
def mcs (s : St) : Out St := mcsLoop s.allVar.length s.allVar { s with seo := [] }

/-! ## Spilling -/

/-- The members of the clique of `v`, core/ir_cg.c:858-880: `v` and its neighbours earlier in the order. -/
def clique (s : St) (earlier : List Nat) (v : Nat) : List Nat :=
  (s.cg v).adj.foldl (fun q u => if u ∈ earlier then ins q u else q) [v]

/-- `w++` for the members of the clique of `v`, core/ir_cg.c:863, 875. -/
def bumpW (s : St) (earlier : List Nat) (v : Nat) : St :=
  let s1 := s.upd v (fun e => { e with w := e.w + 1 })
  (s.cg v).adj.foldl (fun s u => if u ∈ earlier then s.upd u (fun e => { e with w := e.w + 1 }) else s) s1

/-- The first loop of `pre_spill`, core/ir_cg.c:853-883. -/
def cliques : List Nat → List Nat → St → St × List (List Nat)
  | _, [], s => (s, [])
  | earlier, v :: l, s =>
    let q := clique s earlier v
    let r := cliques (earlier ++ [v]) l (bumpW s earlier v)
    (r.1, q :: r.2)

/-- The second loop of `pre_spill`, core/ir_cg.c:889-917, with `maxcl_need_spill` (833-843).  Returns the values to
spill.  The fuel is the number of members of all cliques; running out of it would be non-termination. -/
def spillLoop (s : St) : Nat → List (List Nat) → Out (List Nat)
  | fuel, eps =>
    match eps.find? (fun q => decide (colors < q.length)) with
    | none => .ok []
    | some cur =>
      match fuel with
      | 0 => .ub
      | fuel + 1 =>
        match (pickMax (fun v => (s.cg v).w) (fun v => !(s.cg v).nonvr) cur (0, none)).2 with
        | none => .crit
        | some v => do
          let r ← spillLoop s fuel (eps.map (·.filter (· ≠ v)))
          .ok (v :: r)

/-- `pre_spill` after `mcs`, core/ir_cg.c:849-925, for the order in `seo`. -/
def preSpillAlong (s : St) : Out (St × List Nat) :=
  let r := cliques [] s.seo s
  match spillLoop r.1 (r.2.map List.length).sum r.2 with
  | .ok l => .ok (r.1, l)
  | .err => .err
  | .crit => .crit
  | .ub => .ub

/-- `pre_spill`, core/ir_cg.c:845-926 -/
def preSpill (s : St) : Out (St × List Nat) := do
  let s1 ← mcs s
  preSpillAlong s1

/-! ## Colouring -/

/-- The machine register a value is in. -/
def VrPos.inReg (p : VrPos) : Option Nat := if p.allocated && p.spilled == 0 then some p.reg else none

/-- The registers marked in `used_reg` / `used_colors`, core/ir_cg.c:1079-1089; marking one outside of the array is
undefined. -/
def usedRegs (s : St) (l : List Nat) : Out (List Nat) :=
  let u := l.filterMap (fun x => (s.cg x).pos.inReg)
  if u.any (fun r => decide (colors ≤ r)) then .ub else .ok u

/-- The smallest register not in use, core/ir_cg.c:1091-1097. -/
def freeReg (used : List Nat) : Option Nat := (List.range colors).find? (fun i => decide (i ∉ used))

/-- One iteration of `coloring`, core/ir_cg.c:1073-1100. -/
def colorOne (s : St) (v : Nat) : Out St :=
  if (s.cg v).pos.allocated then .ok s
  else do
    let used ← usedRegs s (s.cg v).adj
    match freeReg used with
    | some i => .ok (s.upd v (fun e => { e with pos := { e.pos with allocated := true, reg := i } }))
    | none => .err

def colorAll : List Nat → St → Out St
  | [], s => .ok s
  | v :: l, s => do
    let s' ← colorOne s v
    colorAll l s'

/-- `coloring`, core/ir_cg.c:1066-1102 -/
def coloring (s : St) : Out St := colorAll s.seo s

/-! ## Coalescing -/

def setReg (s : St) (v r : Nat) : St := s.upd v (fun e => { e with pos := { e.pos with reg := r } })

/-- `coalesce`, core/ir_cg.c:1109-1168 -/
def coalesce (s : St) (v1 v2 : Nat) : Out St :=
  let e1 := s.cg v1
  let e2 := s.cg v2
  if e1.pos.spilled = 0 ∧ e2.pos.spilled = 0 ∧ e2.pos.reg ≠ e1.pos.reg then
    if (e1.adj ++ e2.adj).any (fun c => !(s.cg c).pos.allocated) then .crit
    else do
      let used ← usedRegs s (e1.adj ++ e2.adj)
      if e1.fin then
        if colors ≤ e1.pos.reg then .ub
        else if e1.pos.reg ∈ used then .ok s else .ok (setReg s v2 e1.pos.reg)
      else if e2.fin then
        if colors ≤ e2.pos.reg then .ub
        else if e2.pos.reg ∈ used then .ok s else .ok (setReg s v1 e2.pos.reg)
      else match freeReg used with
        | some r => .ok (setReg (setReg s v1 r) v2 r)
        | none => .ok s
  else .ok s

/-- `coalescing`, core/ir_cg.c:1171-1210: the copies `(v1, v2)` of the program in order (moves, stores to and loads
from stack variables). -/
def coalescing : List (Nat × Nat) → St → Out St
  | [], s => .ok s
  | (a, b) :: l, s => do
    let s' ← coalesce s a b
    coalescing l s'

end Verif.RA
