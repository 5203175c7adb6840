import Verif.Spec.Ir
import Verif.Spec.Flatten
/-!
# Specification: one program does what another does
-/
namespace Verif.Pipe
open Verif Verif.IR
open Verif.Flatten (cut)

/-- Calls and memory of a machine and of a function in SSA form are the same (of the arguments of a call, those that the helper takes). -/
def SameCalls (σ : Bpf.St) (τ : IR.St) : Prop := τ.mem = σ.mem ∧ τ.trace = σ.trace.map cut

/-- The function `f` started in `τ` does what the program `P` does when it is started in `σ`: it returns what `P` returns, with the same memory and the same calls, and runs for ever
if `P` does; if it returns, so does `P` (or `P` is stuck on an instruction that has no meaning). -/
structure Lifts (M : Bpf.World) (P : List Bpf.Slot) (σ : Bpf.St) (W : IR.World) (f : Fn) (τ : IR.St) : Prop where
  returns : ∀ n x σ', Bpf.run M P n 0 σ = .done x σ' → ∃ m τ', runFn W f m τ = .done x τ' ∧ SameCalls σ' τ'
  forever : (∀ n, ∃ pc σ', Bpf.run M P n 0 σ = .goto pc σ') → ∀ m, ∃ b r τ', runFn W f m τ = .running b r τ'
  only : ∀ m x τ', runFn W f m τ = .done x τ' → (∃ n σ', Bpf.run M P n 0 σ = .done x σ' ∧ SameCalls σ' τ') ∨ ∃ n, Bpf.run M P n 0 σ = .stuck

/-- The program `Q` on the machine `N` started in `μ` does what `P` does on `M` started in `σ`: it returns what `P` returns, with effects related by `E`, and runs for ever if `P` does;
if it returns, so does `P` (or `P` is stuck on an instruction that has no meaning). -/
structure Rewrites (M : Bpf.World) (P : List Bpf.Slot) (σ : Bpf.St) (N : Bpf.World) (Q : List Bpf.Slot) (μ : Bpf.St) (E : Bpf.St → Bpf.St → Prop) : Prop where
  returns : ∀ n x σ', Bpf.run M P n 0 σ = .done x σ' → ∃ m μ', Bpf.run N Q m 0 μ = .done x μ' ∧ E σ' μ'
  forever : (∀ n, ∃ pc σ', Bpf.run M P n 0 σ = .goto pc σ') → ∀ m, ∃ pc μ', Bpf.run N Q m 0 μ = .goto pc μ'
  only : ∀ m x μ', Bpf.run N Q m 0 μ = .done x μ' → (∃ n σ', Bpf.run M P n 0 σ = .done x σ' ∧ E σ' μ') ∨ ∃ n, Bpf.run M P n 0 σ = .stuck

/-- Memory outside of the bytes `frame` is the same, and so are the calls (of the arguments, those that the helper takes). -/
def SameOutside (frame : BitVec 64 → Prop) (σ μ : Bpf.St) : Prop := (∀ a, ¬ frame a → μ.mem a = σ.mem a) ∧ μ.trace.map cut = σ.trace.map cut

/-- The program gets to a division whose divisor is zero. -/
def ZeroDivides (M : Bpf.World) (P : List Bpf.Slot) (σ : Bpf.St) : Prop :=
  ∃ (n p : Nat) (σ' : Bpf.St) (s : Bpf.Slot) (w : Bool) (d : BitVec 4) (src : Bpf.Src), Bpf.run M P n 0 σ = .goto p σ' ∧ P[p]? = some s ∧ Bpf.decode s = some (.alu w .div d src) ∧ src.val σ' = 0

/-- The two machines are started alike: the same arguments in r1 to r5, the same memory outside of the bytes `frame`; the frame pointer of the second, `p`, is `d` below that of the first
(if `d` is not 0, the rewritten program keeps spilled values directly below `p`, and the stack of the original program is below them). -/
structure Enters (p d : BitVec 64) (frame : BitVec 64 → Prop) (σ μ : Bpf.St) : Prop where
  fp : μ.reg 10 = p
  orig : σ.reg 10 = p + d
  args : ∀ r, 1 ≤ r → r ≤ 5 → μ.reg r = σ.reg r
  same : SameOutside frame σ μ

/-- The state in which the lifted function starts. -/
def initial (σ : Bpf.St) : IR.St where
  env := fun x => if x = 0 then σ.reg 10 else σ.reg x
  var := fun _ => 0
  mem := σ.mem
  trace := σ.trace.map cut

end Verif.Pipe
