/-!
# Outcomes of C functions

`Out α` is the result of running a C function of ePass.

* `ok a`  : it returned `a` with `env->err == 0`;
* `err`   : `RAISE_ERROR` / `RAISE_ERROR_RET` (core/include/linux/bpf_ir.h), i.e. `env->err != 0`;
* `crit`  : `CRITICAL` or a failing `DBGASSERT` (the process aborts);
* `ub`    : undefined behaviour of the C program (out-of-bounds access, division by zero, ...).

Memory allocation (`SAFE_MALLOC`) is assumed to succeed.
-/
namespace Verif

inductive Out (α : Type u) where
  | ok (a : α)
  | err
  | crit
  | ub
  deriving Repr, DecidableEq, Inhabited

namespace Out

@[inline] def bind {α : Type u} {β : Type v} (x : Out α) (f : α → Out β) : Out β :=
  match x with
  | ok a => f a
  | err => err
  | crit => crit
  | ub => ub

instance : Monad Out where
  pure := Out.ok
  bind := Out.bind

def map' {α : Type u} {β : Type v} (f : α → β) (x : Out α) : Out β := x.bind (fun a => ok (f a))

def isOk {α : Type u} : Out α → Bool
  | ok _ => true
  | _ => false

@[simp] theorem ok_bind {α β} (a : α) (f : α → Out β) : (Out.ok a >>= f) = f a := rfl
@[simp] theorem err_bind {α β} (f : α → Out β) : ((Out.err : Out α) >>= f) = Out.err := rfl
@[simp] theorem crit_bind {α β} (f : α → Out β) : ((Out.crit : Out α) >>= f) = Out.crit := rfl
@[simp] theorem ub_bind {α β} (f : α → Out β) : ((Out.ub : Out α) >>= f) = Out.ub := rfl
@[simp] theorem pure_eq {α} (a : α) : (pure a : Out α) = Out.ok a := rfl

theorem bind_eq_ok {α β} {x : Out α} {f : α → Out β} {b : β} :
    (x >>= f) = Out.ok b ↔ ∃ a, x = Out.ok a ∧ f a = Out.ok b := by
  cases x <;> simp

end Out
end Verif
