import Verif.Cg.FrontProps
import Verif.Loc.Props
import Verif.Stack.Places
import Verif.RemPhi.Props
import Verif.Flatten.EmitProps
import Verif.Compile.Model
import Verif.Spec.Compile
/-!
# Composition of the steps of code generation
-/
namespace Verif.Compile
open Verif Verif.IR Verif.Edit Verif.Cg Verif.Loc Verif.Flatten
open Verif.Norm (VrPos Reg)

theorem lower_keeps_moved {W : World} {f g h : Fn} {k : Nat → Nat} {d : BitVec 64} {σ : IR.St} {τ τ' : Loc.St} (h1 : Lower.Keeps W f g k σ τ)
    (h2 : ∀ n, Stack.MovedOut d (Loc.runFn W g k n τ) (Loc.runFn W h k n τ')) : Lower.Keeps W f h k σ τ' := by
  intro n
  rcases h1 n with e | ⟨m, hm, hs⟩
  · exact .inl e
  · refine .inr ⟨m, hm, ?_⟩
    have h2 := h2 m
    generalize IR.runFn W f n σ = r at hs
    generalize Loc.runFn W g k m τ = r1 at hs h2
    generalize Loc.runFn W h k m τ' = r2 at h2
    cases hs with
    | done x σ' τ1 a b => cases h2 with | done _ _ τ2 hm => exact .done _ _ _ (hm.mem.trans a) (hm.trace.trans b)
    | thrown σ' τ1 a b => cases h2 with | thrown _ τ2 hm => exact .thrown _ _ (hm.mem.trans a) (hm.trace.trans b)
    | running b c r s σ' τ1 h1 h2' => cases h2 with | running _ _ _ τ2 hm => exact .running _ _ _ _ _ _ (hm.mem.trans h1) (hm.trace.trans h2')

/-- An execution that goes on after `n` steps went on before. -/
theorem running_before {W : World} {f : Fn} {l : Nat → Nat} (d : Nat) : ∀ (n b : Nat) (rest : List Nat) (τ : Loc.St),
    (∃ b' r' τ', Loc.run W f l (n + d) b rest τ = .running b' r' τ') → ∃ b' r' τ', Loc.run W f l n b rest τ = .running b' r' τ'
  | 0, b, rest, τ, _ => ⟨b, rest, τ, rfl⟩
  | n + 1, b, rest, τ, h => by
    rw [Nat.succ_add] at h
    unfold Loc.run at h ⊢
    revert h
    cases Loc.step W f l b rest τ with
    | goto b' r' τ2 => exact running_before d n b' r' τ2
    | done x => exact id
    | thrown => exact id
    | stuck => exact id

theorem bpf_done_more {M : Bpf.World} {code : List Bpf.Slot} {x : BitVec 64} {σ' : Bpf.St} (d : Nat) : ∀ (n : Nat) (pc : Int) (σ : Bpf.St),
    Bpf.run M code n pc σ = .done x σ' → Bpf.run M code (n + d) pc σ = .done x σ'
  | 0, _, _, h => by cases h
  | n + 1, pc, σ, h => by
    rw [Nat.succ_add]
    unfold Bpf.run at h ⊢
    revert h
    cases Bpf.step M code pc σ with
    | goto pc' σ2 => exact bpf_done_more d n pc' σ2
    | _ => exact id

theorem bpf_done_one {M : Bpf.World} {code : List Bpf.Slot} {x y : BitVec 64} {σ σ1 σ2 : Bpf.St} {n m : Nat} {pc : Int} (h1 : Bpf.run M code n pc σ = .done x σ1)
    (h2 : Bpf.run M code m pc σ = .done y σ2) : x = y ∧ σ1 = σ2 := by
  have a := bpf_done_more m n pc σ h1
  have b := bpf_done_more n m pc σ h2
  rw [Nat.add_comm m n, a] at b
  cases b
  exact ⟨rfl, rfl⟩

theorem implements_of {G : Layout.Graph} {W : World} {f g : Fn} {R : List Nat} {dst : Nat → Option Nat} {pos : Nat → VrPos} {N fuel : Nat} {bs : List Flat.Block} {code : List Bpf.Slot} {σ : IR.St}
    {τ : Loc.St} {μ : Bpf.St} {M : Bpf.World} {p : BitVec 64} (hk : Lower.Keeps W f g (places pos) σ τ) (h : Placed g R dst pos) (hf : Flow g R)
    (hG : GraphFor G g R) (hw : Layout.WF G g.entry N) (hl : Layout.layout G fuel g.entry = some (.ok R))
    (hcond : ∀ b ∈ R, ∀ t e, (G b).last = .cond t e → g.succs b = [t, e]) (hb : flatten g dst pos R = .ok bs) (hp : ∀ b ∈ bs, ∀ i ∈ b.insns, Emit.Plain i)
    (he : Emit.emit bs = .ok code) (hlen : code.length ≤ 32768) (hW : Serves g R pos p M W) (hm : Mirror g R pos p τ μ) (hs : Sane W g R pos p τ) :
    Implements W f σ M code μ (SameEffect g R pos p) := by
  obtain ⟨c1, c2, c3⟩ := bytecode_on h hf hG hw hl hcond hb hp he hlen M W p τ μ hW hm hs
  have r1 : ∀ n x σ', IR.runFn W f n σ = .done x σ' → ∃ m μ', Bpf.run M code m 0 μ = .done x μ' ∧ SameEffect g R pos p σ' μ' := by
    intro n x σ' e
    rcases hk n with e' | ⟨m, -, hs⟩
    · rw [e] at e'; cases e'
    · rw [e] at hs
      generalize hq : Loc.runFn W g (places pos) m τ = q at hs
      cases hs with
      | done _ _ τ' a b =>
        obtain ⟨k, μ', h1, h2⟩ := c1 m x τ' hq
        exact ⟨k, μ', h1, fun y hy => by rw [h2.1 y hy, a], by rw [h2.2, b]⟩
  have r2 : (∀ n, ∃ b r σ', IR.runFn W f n σ = .running b r σ') → ∀ m, ∃ pc μ', Bpf.run M code m 0 μ = .goto pc μ' := by
    intro hr
    refine c2 fun n => ?_
    obtain ⟨b, r, σ', e⟩ := hr n
    rcases hk n with e' | ⟨m, hm, hs⟩
    · rw [e] at e'; cases e'
    · rw [e] at hs
      generalize hq : Loc.runFn W g (places pos) m τ = q at hs
      cases hs with
      | running _ c _ s _ τ' a b =>
        obtain ⟨d, rfl⟩ := Nat.exists_eq_add_of_le hm
        exact running_before d n g.entry (g.body g.entry) τ ⟨c, s, τ', hq⟩
  refine ⟨r1, r2, fun m x μ' e => ?_⟩
  by_cases h1 : ∃ n, IR.runFn W f n σ = .stuck
  · exact .inr h1
  by_cases h2 : ∃ n y σ', IR.runFn W f n σ = .done y σ'
  · obtain ⟨n, y, σ', e2⟩ := h2
    obtain ⟨k, μ2, h3, h4⟩ := r1 n y σ' e2
    obtain ⟨rfl, rfl⟩ := bpf_done_one e h3
    exact .inl ⟨n, σ', e2, h4⟩
  by_cases h3 : ∃ n σ', IR.runFn W f n σ = .thrown σ'
  · exfalso
    obtain ⟨n, σ', e2⟩ := h3
    rcases hk n with e' | ⟨k, -, hs'⟩
    · exact h1 ⟨n, e'⟩
    · rw [e2] at hs'
      obtain ⟨bs', is, -, -, -, K⟩ := C55_flat h hf
      have K := K M W p τ μ hW hm hs k
      generalize Loc.runFn W g (places pos) k τ = q at hs' K
      cases hs' with
      | thrown _ τ' a b =>
        rcases K with K | K
        · cases K
        · generalize Flat.runB M bs' (next g) k g.entry is μ = q at K
          cases K
  · exfalso
    obtain ⟨pc, μ2, e2⟩ := r2 (fun n => by
      cases e3 : IR.runFn W f n σ with
      | running b r σ' => exact ⟨b, r, σ', rfl⟩
      | stuck => exact absurd ⟨n, e3⟩ h1
      | done y σ' => exact absurd ⟨n, y, σ', e3⟩ h2
      | thrown σ' => exact absurd ⟨n, σ', e3⟩ h3) m
    rw [e] at e2
    cases e2

end Verif.Compile
