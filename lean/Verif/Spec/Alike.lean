import Verif.Spec.Ir
/-!
# Specification: runs of two functions that differ in the names of their instructions
-/
namespace Verif.IR

/-- `u` and `v` are the same where `N` says that `x` and `y` are the same thing. -/
def Match {α : Type} (N : Nat → Nat → Prop) (u v : Nat → α) : Prop := ∀ x y, N x y → u x = v y

/-- The same state, but for names. -/
structure MatchSt (N : Nat → Nat → Prop) (σ τ : St) : Prop where
  env : Match N σ.env τ.env
  var : Match N σ.var τ.var
  mem : σ.mem = τ.mem
  trace : σ.trace = τ.trace

/-- The same surroundings, but for names. -/
structure MatchWorld (N : Nat → Nat → Prop) (W W' : World) : Prop where
  bpf : W.bpf = W'.bpf
  arr : Match N W.arr W'.arr
  wid : Match N W.wid W'.wid

/-- The same outcome: the same value if there is one, the same memory, the same calls. -/
inductive AlikeRes : Res → Res → Prop
  | done (x σ τ) : σ.mem = τ.mem → σ.trace = τ.trace → AlikeRes (.done x σ) (.done x τ)
  | thrown (σ τ) : σ.mem = τ.mem → σ.trace = τ.trace → AlikeRes (.thrown σ) (.thrown τ)
  | running (b c r r' σ τ) : σ.mem = τ.mem → σ.trace = τ.trace → AlikeRes (.running b r σ) (.running c r' τ)
  | stuck : AlikeRes .stuck .stuck

end Verif.IR
