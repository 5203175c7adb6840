import Verif.Flatten.Props
import Verif.Emit.Check
/-!
# C56: from allocated functions to bytecode
-/
namespace Verif.Flatten
open Verif Verif.IR Verif.Loc
open Verif.Norm (VrPos FVal FInsn posType)
open Verif.Emit (Matches Plain succOf emit)

/-- What ends a block, for the layout (`bpf_ir_get_last_insn`, used in core/bpf_ir.c:1590-1664). -/
def lastOf (f : Fn) (b : Nat) : Layout.Last :=
  match (f.body b).getLast? with
  | none => .none
  | some x => if (f.insn x).op = .ja then .ja (f.insn x).bb1 else if (f.insn x).op.condJmp then .cond (f.insn x).bb1 (f.insn x).bb2 else .other

/-- The flow graph of a function. -/
def graphOf (f : Fn) : Layout.Graph := fun b => ⟨f.succs b, f.preds b, lastOf f b⟩

theorem lastOf_ja {f : Fn} {b t : Nat} (h : lastOf f b = .ja t) : ∃ pre x, f.body b = pre ++ [x] ∧ (f.insn x).op = .ja ∧ (f.insn x).bb1 = t := by
  unfold lastOf at h
  split at h
  · cases h
  · next x hx =>
    obtain ⟨pre, hp⟩ := List.getLast?_eq_some_iff.1 hx
    split at h
    · next ho =>
      cases h
      exact ⟨pre, x, hp, ho, rfl⟩
    · split at h <;> cases h

theorem flat_matches {f : Fn} {R : List Nat} {dst : Nat → Option Nat} {pos : Nat → VrPos} (hf : Flow f R) : Matches (graphOf f) R (R.map (fb f dst pos)) := by
  refine ⟨?_, ?_, ?_, ?_⟩
  · rw [List.map_map]
    show R.map (fun b => b) = R
    exact List.map_id R
  · intro B hB pre i e hc
    obtain ⟨b, hb, rfl⟩ := List.mem_map.1 hB
    obtain ⟨xs, ys, e1, e2, e3⟩ := List.map_eq_append_iff.1 (show (f.body b).map (fi f dst pos) = pre ++ [i] from e)
    obtain ⟨x, rfl, rfl⟩ := List.map_eq_singleton_iff.1 e3
    show lastOf f b = _
    have hc' : (f.insn x).op.condJmp = true := hc
    unfold lastOf
    rw [e1]
    simp only [List.getLast?_append, List.getLast?_singleton, Option.some_or]
    rw [if_neg (by intro h; rw [h] at hc'; cases hc'), if_pos hc']
    rfl
  · intro B hB t ht
    obtain ⟨b, hb, rfl⟩ := List.mem_map.1 hB
    obtain ⟨pre, x, e, h1, h2⟩ := lastOf_ja (b := b) ht
    refine ⟨pre.map (fi f dst pos), fi f dst pos x, ?_, h1, h2⟩
    show (f.body b).map (fi f dst pos) = _
    rw [e, List.map_append]
    rfl
  · intro B hB pre i post e hc
    obtain ⟨b, hb, rfl⟩ := List.mem_map.1 hB
    obtain ⟨xs, ys, e1, e2, e3⟩ := List.map_eq_append_iff.1 (show (f.body b).map (fi f dst pos) = pre ++ i :: post from e)
    cases ys with
    | nil => cases e3
    | cons x ys =>
      have h1 : fi f dst pos x = i := (List.cons.inj e3).1
      have h2 : ys.map (fi f dst pos) = post := (List.cons.inj e3).2
      have hc' : (f.insn x).op.condJmp = true := by rw [← h1] at hc; exact hc
      have := hf.last b hb xs x ys e1 (by simp [Loc.control, hc']) (by intro h; rw [h] at hc'; cases hc')
      rw [← h2, this]
      rfl

/-- What the machine has done when it returns: memory outside of the slots and calls are those of the function on places. -/
def SameEnd (f : Fn) (R : List Nat) (pos : Nat → VrPos) (p : BitVec 64) (τ : Loc.St) (σ : Bpf.St) : Prop :=
  (∀ a, ¬ InFrame f R pos p a → σ.mem a = τ.mem a) ∧ σ.trace.map cut = τ.trace

/-- `G` is the graph of `f`, as far as code generation for the blocks `R` looks at it. -/
structure GraphFor (G : Layout.Graph) (f : Fn) (R : List Nat) : Prop where
  succs : ∀ b, (G b).succs = f.succs b
  ja : ∀ b ∈ R, ∀ t, (G b).last = .ja t → lastOf f b = .ja t
  cond : ∀ b ∈ R, ∀ t e, lastOf f b = .cond t e → (G b).last = .cond t e

theorem graphFor_self (f : Fn) (R : List Nat) : GraphFor (graphOf f) f R := ⟨fun _ => rfl, fun _ _ _ h => h, fun _ _ _ _ h => h⟩

theorem matches_for {G : Layout.Graph} {f : Fn} {R : List Nat} {bs : List Flat.Block} (h : GraphFor G f R) (hm : Matches (graphOf f) R bs) : Matches G R bs := by
  have mem : ∀ b ∈ bs, b.id ∈ R := fun b hb => by rw [← hm.ids]; exact List.mem_map_of_mem hb
  exact ⟨hm.ids, fun b hb pre i e hc => h.cond _ (mem b hb) _ _ (hm.cond b hb pre i e hc), fun b hb t ht => hm.ja b hb t (h.ja _ (mem b hb) t ht), hm.condLast⟩

/-- C56 with the layout computed on an earlier graph. -/
theorem bytecode_on {G : Layout.Graph} {f : Fn} {R : List Nat} {dst : Nat → Option Nat} {pos : Nat → VrPos} {N fuel : Nat} {bs : List Flat.Block} {code : List Bpf.Slot}
    (h : Placed f R dst pos) (hf : Flow f R) (hG : GraphFor G f R) (hw : Layout.WF G f.entry N) (hl : Layout.layout G fuel f.entry = some (.ok R))
    (hcond : ∀ b ∈ R, ∀ t e, (G b).last = .cond t e → f.succs b = [t, e]) (hb : flatten f dst pos R = .ok bs) (hp : ∀ b ∈ bs, ∀ i ∈ b.insns, Plain i)
    (he : emit bs = .ok code) (hlen : code.length ≤ 32768) (M : Bpf.World) (W : World) (p : BitVec 64) (τ : Loc.St) (σ : Bpf.St)
    (hW : Serves f R pos p M W) (hm : Mirror f R pos p τ σ) (hs : Sane W f R pos p τ) :
    (∀ n x τ', Loc.runFn W f (places pos) n τ = .done x τ' → ∃ m σ', Bpf.run M code m 0 σ = .done x σ' ∧ SameEnd f R pos p τ' σ') ∧
    ((∀ n, ∃ b r τ', Loc.runFn W f (places pos) n τ = .running b r τ') → ∀ m, ∃ pc σ', Bpf.run M code m 0 σ = .goto pc σ') ∧
    (∀ m x σ', Bpf.run M code m 0 σ = .done x σ' → (∃ n τ', Loc.runFn W f (places pos) n τ = .done x τ' ∧ SameEnd f R pos p τ' σ') ∨
      ∃ n, Loc.runFn W f (places pos) n τ = .stuck) := by
  obtain ⟨bs', is, e1, e2, e3, k⟩ := C55_flat h hf
  rw [hb] at e1
  cases e1
  have hm' : Matches (graphOf f) R bs := by
    have := flatten_ok h (fun _ (hb : _ ∈ R) => hb)
    rw [hb] at this
    injection this with this
    rw [this]
    exact flat_matches hf
  obtain ⟨c1, c2, c3⟩ := Emit.C09_refinement_partial M G f.entry N fuel R bs code is hw hl (fun b hb t e hx => by rw [hG.succs]; exact hcond b hb t e hx) (matches_for hG hm') hp he hlen e3 σ
  have K := k M W p τ σ hW hm hs
  have hsucc : succOf G = next f := by
    funext b
    have : succOf G b = succOf (graphOf f) b := by
      unfold succOf
      rw [hG.succs]
      rfl
    exact this
  rw [hsucc] at c1 c2 c3
  refine ⟨?_, ?_, ?_⟩
  · intro n x τ' hr
    have K := K n
    rw [hr] at K
    rcases K with K | K
    · cases K
    · generalize hq : Flat.runB M bs (next f) n f.entry is σ = q at K
      cases K with
      | done _ _ σ' hm' =>
        obtain ⟨m, hm2⟩ := c1 n x σ' hq
        exact ⟨m, _, hm2, hm'.mem, hm'.trace⟩
  · intro hr
    refine c2 (fun n => ?_)
    obtain ⟨b, r, τ', hr⟩ := hr n
    have K := K n
    rw [hr] at K
    rcases K with K | K
    · cases K
    · generalize hq : Flat.runB M bs (next f) n f.entry is σ = q at K
      cases K with
      | running => rfl
  · intro m x σ' hr
    rcases c3 m x σ' hr with ⟨n, σ2, h1, h2⟩ | ⟨n, h1⟩
    · rcases K n with K | K
      · exact .inr ⟨n, K⟩
      · rw [h1] at K
        generalize hq : Loc.runFn W f (places pos) n τ = q at K
        cases K with
        | done _ τ' _ hm' =>
          refine .inl ⟨n, τ', hq, ?_⟩
          rw [h2]
          exact ⟨hm'.mem, hm'.trace⟩
    · rcases K n with K | K
      · exact .inr ⟨n, K⟩
      · rw [h1] at K
        generalize Loc.runFn W f (places pos) n τ = q at K
        cases K

/-- **C56** (partial): from the function on registers and stack slots to bytecode.  If flattening, lowering and relocation of the blocks, in the order of the layout, give at most 32768 slots, the
bytecode does what the function on places does: it returns the same value, with the same memory outside of the slots of spilled values and the same helper calls, when the function
returns; runs for ever when the function does; and returns nothing else.  Missing: the operand patterns that C10–C14 exclude (`Plain`), builtin constants,
graphs on which the layout goes wrong (C08) and larger programs (C07). -/
theorem C56_bytecode_partial {f : Fn} {R : List Nat} {dst : Nat → Option Nat} {pos : Nat → VrPos} {N fuel : Nat} {bs : List Flat.Block} {code : List Bpf.Slot}
    (h : Placed f R dst pos) (hf : Flow f R) (hw : Layout.WF (graphOf f) f.entry N) (hl : Layout.layout (graphOf f) fuel f.entry = some (.ok R))
    (hcond : ∀ b ∈ R, ∀ t e, lastOf f b = .cond t e → f.succs b = [t, e]) (hb : flatten f dst pos R = .ok bs) (hp : ∀ b ∈ bs, ∀ i ∈ b.insns, Plain i)
    (he : emit bs = .ok code) (hlen : code.length ≤ 32768) (M : Bpf.World) (W : World) (p : BitVec 64) (τ : Loc.St) (σ : Bpf.St)
    (hW : Serves f R pos p M W) (hm : Mirror f R pos p τ σ) (hs : Sane W f R pos p τ) :
    (∀ n x τ', Loc.runFn W f (places pos) n τ = .done x τ' → ∃ m σ', Bpf.run M code m 0 σ = .done x σ' ∧ SameEnd f R pos p τ' σ') ∧
    ((∀ n, ∃ b r τ', Loc.runFn W f (places pos) n τ = .running b r τ') → ∀ m, ∃ pc σ', Bpf.run M code m 0 σ = .goto pc σ') ∧
    (∀ m x σ', Bpf.run M code m 0 σ = .done x σ' → (∃ n τ', Loc.runFn W f (places pos) n τ = .done x τ' ∧ SameEnd f R pos p τ' σ') ∨
      ∃ n, Loc.runFn W f (places pos) n τ = .stuck) :=
  bytecode_on h hf (graphFor_self f R) hw hl hcond hb hp he hlen M W p τ σ hW hm hs

/-! ## Example -/

theorem exF_wf : Layout.WF (graphOf exF) 0 3 := by
  refine Emit.wf_of_check (by decide +kernel) (fun b hb => ?_)
  have h1 : exF.body b = [] := Cg.mkFn_body (by
    show b ∉ List.range 3
    simp
    omega)
  show Layout.Blk.jaTo ⟨_, _, lastOf exF b⟩ = none
  unfold lastOf
  rw [h1]
  rfl

/-- The bytecode of the example. -/
def exCode : List Bpf.Slot := match flatten exF (Cg.dstOf exF) exPos exR with
  | .ok bs => (match emit bs with | .ok c => c | _ => [])
  | _ => []

/-- The hypotheses of the theorem hold for the example of C55: the bytecode returns 196. -/
example : ∃ m σ, Bpf.run exM exCode m 0 exσ = .done 196 σ := by
  obtain ⟨bs, is, hb, -⟩ := C55_flat exF_placed exF_flow
  have hp : ∀ b ∈ bs, ∀ i ∈ b.insns, Plain i := by
    have h1 : (match flatten exF (Cg.dstOf exF) exPos exR with | .ok bs => bs.all (fun b => b.insns.all Emit.plainB) | _ => false) = true := by decide +kernel
    rw [hb] at h1
    intro b hb i hi
    exact Emit.plain_of_check (List.all_eq_true.1 (List.all_eq_true.1 h1 b hb) i hi)
  have hc : ∃ code, emit bs = .ok code ∧ code = exCode ∧ code.length ≤ 32768 := by
    have h1 : (match flatten exF (Cg.dstOf exF) exPos exR with | .ok bs => (match emit bs with | .ok c => decide (c = exCode ∧ c.length ≤ 32768) | _ => false) | _ => false) = true := by decide +kernel
    rw [hb] at h1
    dsimp only at h1
    cases he : emit bs with
    | ok c =>
      rw [he] at h1
      exact ⟨c, rfl, of_decide_eq_true h1⟩
    | _ =>
      rw [he] at h1
      cases h1
  obtain ⟨code, he, rfl, hlen⟩ := hc
  have hcond : ∀ b ∈ exR, ∀ t e, lastOf exF b = .cond t e → exF.succs b = [t, e] := by
    have h1 : ∀ b ∈ exR, (match lastOf exF b with | .cond t e => decide (exF.succs b = [t, e]) | _ => true) = true := by decide +kernel
    intro b hb t e hx
    have h1 := h1 b hb
    rw [hx] at h1
    exact of_decide_eq_true h1
  have := (C56_bytecode_partial (fuel := 20) exF_placed exF_flow exF_wf (by decide +kernel) hcond hb hp he hlen exM (exW 0x1000) 0x1000 exτ exσ
    (exW_serves _) ex_mirror ex_sane).1 24
  have h4 : (match Loc.runFn (exW 0x1000) exF (places exPos) 24 exτ with | .done v _ => decide (v = 196) | _ => false) = true := by decide +kernel
  generalize Loc.runFn (exW 0x1000) exF (places exPos) 24 exτ = r at this h4
  cases r with
  | done v τ' =>
    obtain ⟨m, σ', h5, -⟩ := this v τ' rfl
    rw [of_decide_eq_true h4] at h5
    exact ⟨m, σ', h5⟩
  | _ => cases h4

end Verif.Flatten
