import Verif.Heap.Lemmas
import Verif.Opts.Model
/-!
# Model of the memory of pass parameters (core/aux/kern_utils.c:4-90, 190-247)

The functions of `Opts` again, with the memory that the loaders of parameters allocate (core/passes/insn_counter_pass.c:181, core/passes/optimization.c:144), and
`bpf_ir_free_opts`.  Loaders allocate one piece of memory when they succeed and none otherwise; unloaders free it (core/passes/insn_counter_pass.c:189-192,
core/passes/optimization.c:152-155).
-/
namespace Verif.Heap
open Verif Verif.Opts

/-- A configuration, whether it has a `param_unload`, and the memory of `param`. -/
structure Slot (α : Type) where
  cfg : α
  unload : Bool
  mem : Option Ptr

/-- What the search needs of a configuration. -/
class Cfg (α : Type) where
  name : α → Str
  load : α → Option Loader
  /-- set the parameter if there is a new one, and enable -/
  set : α → Option Param → α
  /-- `param = NULL` -/
  drop : α → α

/-- core/aux/kern_utils.c:44-62 -/
instance : Cfg Builtin where
  name := Builtin.name
  load := Builtin.load
  set b v := { b with param := v.or b.param, enableCfg := true, enable := false }
  drop b := { b with param := none }

/-- core/aux/kern_utils.c:66-84 -/
instance : Cfg Custom where
  name := Custom.name
  load := Custom.load
  set b v := { b with param := v.or b.param, enabled := true }
  drop b := { b with param := none }

/-- The memory of a parameter that was loaded: the old pointer is overwritten. -/
def grab (h : Heap) (m : Option Ptr) : Option Param → Heap × Option Ptr
  | none => (h, m)
  | some _ => (h.malloc.2, some h.malloc.1)

/-- Both searches of `apply_pass_opt`, core/aux/kern_utils.c:43-84 -/
def applyM {α : Type} [Cfg α] (name : Str) (par : Option Str) (h : Heap) : List (Slot α) → Out (Option (Int × Heap × List (Slot α)))
  | [] => .ok none
  | b :: bs =>
    if Cfg.name b.cfg = name then
      match loadParam (Cfg.load b.cfg) par with
      | .ok (.error e) => .ok (some (e, h, b :: bs))
      | .ok (.ok v) => .ok (some (0, (grab h b.mem v).1, ⟨Cfg.set b.cfg v, b.unload, (grab h b.mem v).2⟩ :: bs))
      | .err => .err
      | .crit => .crit
      | .ub => .ub
    else
      match applyM name par h bs with
      | .ok (some (r, h', bs')) => .ok (some (r, h', b :: bs'))
      | o => o

/-- The options with their memory. -/
structure EnvM where
  opts : GOpts
  builtin : List (Slot Builtin)
  custom : List (Slot Custom)
  h : Heap

/-- The options. -/
def EnvM.env (e : EnvM) : Env := ⟨e.opts, e.builtin.map (·.cfg), e.custom.map (·.cfg)⟩

/-- `apply_pass_opt`, core/aux/kern_utils.c:4-90 -/
def applyPassM (e : EnvM) (s : Str) : Out (Int × EnvM) := do
  match ← scan [] none s with
  | none => .ok (-22, e)
  | some (name, par, closed) =>
    if par.isSome ∧ closed = false then .ok (-22, e)
    else if 32 ≤ name.length then .ub
    else
      match ← applyM name par e.h e.builtin with
      | some (r, h, bs) => .ok (r, { e with builtin := bs, h := h })
      | none =>
        match ← applyM name par e.h e.custom with
        | some (r, h, cs) => .ok (r, { e with custom := cs, h := h })
        | none => .ok (-22, e)

/-- `bpf_ir_init_opts`, core/aux/kern_utils.c:190-226 -/
def initOptsM (e : EnvM) (g p : Option Str) : Out (Int × EnvM) := do
  let g := g.getD []
  let p := p.getD []
  let r ← loop ',' 64 (fun (e : EnvM) s => let r := applyGlobal e.opts s; Out.ok (r.1, { e with opts := r.2 })) g.length e g
  if r.1 < 0 then .ok r else loop ',' 64 applyPassM p.length r.2 p

/-- One loop of `bpf_ir_free_opts`, core/aux/kern_utils.c:231-246 -/
def freeSlots {α : Type} [Cfg α] (h : Heap) : List (Slot α) → Out (Heap × List (Slot α))
  | [] => .ok (h, [])
  | b :: bs =>
    match b.mem, b.unload with
    | some p, true => do
      let h ← h.free p
      let r ← freeSlots h bs
      .ok (r.1, ⟨Cfg.drop b.cfg, true, none⟩ :: r.2)
    | _, _ => do
      let r ← freeSlots h bs
      .ok (r.1, b :: r.2)

/-- `bpf_ir_free_opts`, core/aux/kern_utils.c:228-247 -/
def freeOpts (e : EnvM) : Out EnvM := do
  let b ← freeSlots e.h e.builtin
  let c ← freeSlots b.1 e.custom
  .ok { e with builtin := b.2, custom := c.2, h := c.1 }

end Verif.Heap
