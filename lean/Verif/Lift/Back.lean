import Verif.Lift.Props
/-!
# C20, from the lifted function to the program
-/
namespace Verif.Lift
open Verif Verif.Bpf Verif.IR Verif.GenBB
set_option linter.unusedVariables false

section
variable {P : List Slot} {C : List Blk} {g : Gh} {s : LSt} {W : Bpf.World} {WI : IR.World}

/-- A move is a step of the machine and none of the IR. -/
theorem mov_step (hW : Agree W WI) (hG : Graph P C) (hcl : ∀ sl ∈ P, ∀ i, decode sl = some i → Clean i) {pc : Nat} {σ : Bpf.St} {b : Nat} {rest : List Nat} {τ : IR.St} {k : Blk}
    {q : PreInsn} {qs : List PreInsn} {m : M} (h : Point P C s pc σ b rest τ k (q :: qs) m) {sl : Slot} {i : Instr} (hs : P[pc]? = some sl) (hd : decode sl = some i) (hm : isMov i = true) :
    ∃ σ1 m1, Bpf.step W P pc σ = .goto ((pc + 1 : Nat) : Int) σ1 ∧ Point P C s (pc + 1) σ1 b rest τ k qs m1 := by
  obtain ⟨defd, a, xs, ys, m1, hpl, ht, hrest, hpt, hfr⟩ := h.pt.tail
  cases h.chain with
  | @wide _ sl' s2 d kk _ h1 h2 h3 h4 h5 => rw [hs] at h2; cases h2; rw [hd] at h4; cases h4; cases hm
  | @one _ sl' i' x _ h1 h2 h3 h4 h5 =>
    rw [hs] at h2; cases h2
    rw [hd] at h3; cases h3
    cases i with
    | alu w op d src =>
      have hop : op = .mov := by cases op <;> first | rfl | cases hm
      subst hop
      have hst := step_at (W := W) (σ := σ) hs hd rfl h4
      obtain ⟨τ', e1, e2, e3⟩ := straight_sim (W := W) (σ := σ) (σ' := σ.set d.toNat (alu w .mov (σ.reg d.toNat) (src.val σ))) hW (q := ⟨sl, false, x, pc⟩)
        hd rfl (hcl sl (List.mem_of_getElem? hs) _ hd) (fun f e => by cases e) hpl ht hfr h.rel rfl
      rw [plan_decode C defd _ (i := .alu w .mov d src) hd] at hpl
      simp only [planI, if_pos] at hpl
      cases hpl
      cases ht with
      | mov f1 f2 =>
        rcases e1 with ⟨-, rfl⟩ | ⟨x, e, _⟩
        · have hr : rest = ys := by rw [hrest]; rfl
          subst hr
          refine ⟨_, _, hst, h.blk, h.reach, h5, by have := h.low; omega, hpt, e2, ?_⟩
          intro hq hlt
          subst hq
          have h5' := h5.nil_eq
          rw [show k.stop - 1 = pc by omega, flow_get hs, hd, flowI_straight rfl]
          simp; omega
        · cases e
    | _ => cases hm

/-- What the IR gets to belongs to a slot that the machine gets to. -/
def Shows (W : Bpf.World) (P : List Slot) (f : Fn) (pc : Int) (σ : Bpf.St) (x : Nat) (τ : IR.St) : Prop :=
  (∃ (j p : Nat) (σ' : Bpf.St) (sl : Slot) (i : Instr), Bpf.run W P j pc σ = .goto p σ' ∧ P[p]? = some sl ∧ decode sl = some i ∧ τ.mem = σ'.mem ∧ τ.trace = σ'.trace.map cutEv ∧
    opOf i = some (f.insn x).op ∧ WorksOn f x τ (operands σ' i)) ∨ ∃ j, Bpf.run W P j pc σ = .stuck

theorem Shows.step {f : Fn} {pc pc1 : Int} {σ σ1 : Bpf.St} {x : Nat} {τ : IR.St} (hst : Bpf.step W P pc σ = .goto pc1 σ1) (h : Shows W P f pc1 σ1 x τ) : Shows W P f pc σ x τ := by
  rcases h with ⟨j, p, σ', sl, i, e, h⟩ | ⟨j, e⟩
  · exact .inl ⟨j + 1, p, σ', sl, i, by simp only [Bpf.run, hst]; exact e, h⟩
  · exact .inr ⟨j + 1, by simp only [Bpf.run, hst]; exact e⟩

theorem back (hW : Agree W WI) (hG : Graph P C) (hF : Fin C g s) (hcl : ∀ sl ∈ P, ∀ i, decode sl = some i → Clean i) : ∀ (K : Nat) {m pc : Nat} {σ : Bpf.St} {b : Nat} {rest : List Nat}
    {τ : IR.St} {k : Blk} {qs : List PreInsn} {mm : M}, m * (P.length + 1) + (P.length - pc) < K → Point P C s pc σ b rest τ k qs mm → ∀ {c x : Nat} {r : List Nat} {τ' : IR.St},
    IR.run WI (toFn C s) m b rest τ = .running c (x :: r) τ' → Shows W P (toFn C s) pc σ x τ' := by
  intro K
  induction K with
  | zero => intro m pc σ b rest τ k qs mm hK; omega
  | succ K ih =>
    intro m pc σ b rest τ k qs mm hK h c x r τ' hr
    cases qs with
    | nil =>
      have hrest := h.pt.last.1
      cases m with
      | zero => rw [hrest] at hr; simp [IR.run] at hr
      | succ m =>
        by_cases hlt : pc < P.length
        · obtain ⟨t, τ2, k2, q2, qs2, e1, e2⟩ := Point.settle (WI := WI) hG hF h hlt
          rw [Nat.add_comm, run_add, e1] at hr
          rw [Nat.succ_mul] at hK
          exact ih (by omega) e2 hr
        · refine .inr ⟨1, ?_⟩
          have hp : ¬ ((pc : Int) < 0) := by omega
          simp [Bpf.run, Bpf.step, hp, List.getElem?_eq_none (show P.length ≤ pc by omega)]
    | cons q qs =>
      obtain ⟨sl, i, hsl, hd⟩ : ∃ sl i, P[pc]? = some sl ∧ decode sl = some i := by
        cases h.chain with
        | one h1 h2 h3 => exact ⟨_, _, h2, h3⟩
        | wide h1 h2 h3 h4 => exact ⟨_, _, h2, h4⟩
      have hlt := lt_of_get hsl
      cases hm : isMov i with
      | true =>
        obtain ⟨σ1, m1, hst, h1⟩ := mov_step (W := W) hW hG hcl h hsl hd hm
        exact Shows.step hst (ih (by omega) h1 hr)
      | false =>
        cases m with
        | zero =>
          obtain ⟨x', rest', e, hw, ho⟩ := point_works (g := g) hcl h hsl hd hm
          rw [e] at hr
          simp only [IR.run, Res.running.injEq, List.cons.injEq] at hr
          obtain ⟨-, ⟨rfl, -⟩, rfl⟩ := hr
          exact .inl ⟨0, pc, σ, sl, i, rfl, hsl, hd, h.rel.mem, h.rel.trace, ho, hw⟩
        | succ m =>
          obtain ⟨g1, g2⟩ := sim_cons hW hG hF hcl h
          cases hst : Bpf.step W P pc σ with
          | stuck => exact .inr ⟨1, by simp only [Bpf.run, hst]⟩
          | done y σ1 =>
            obtain ⟨n, τ1, hn, e, _⟩ := g2 y σ1 hst
            rw [show m + 1 = n + (m + 1 - n) by omega, run_add, e] at hr
            cases hr
          | goto pc1 σ1 =>
            obtain ⟨q', n, b', rest', τ1, rfl, e, hn0, hn, k', qs', m', h1⟩ := g1 pc1 σ1 hst
            rw [show m + 1 = n + (m + 1 - n) by omega, run_add, e] at hr
            refine Shows.step hst (ih ?_ h1 hr)
            have : n = 0 ∨ n = 1 := by omega
            rcases this with rfl | rfl
            · have : pc < q' := by omega
              simp only [Nat.sub_zero]
              omega
            · rw [Nat.succ_mul] at hK
              simp only [Nat.add_sub_cancel]
              omega
end

/-- C20, the converse of `C20_reaching_partial`: whatever instruction the lifted function gets to, after any number of steps along any path, belongs to a slot that the machine gets to: with the same
memory and helper history, the operation is that of the slot and works on the values that the instruction in the slot works on (conditional jumps with offset 0 have become jumps).  Or the
machine is stuck on an instruction that has no meaning. -/
theorem C20_from_partial {P : List Slot} (hw : WellShaped P) (hlen : P.length ≤ 32768) (hne : P ≠ [])
    (hcl : ∀ sl ∈ P, ∀ i, decode sl = some i → Clean i) {n : Nat} {f : Fn} (hf : lift n P = .ok f)
    {W : Bpf.World} {WI : IR.World} (hW : Agree W WI) {σ : Bpf.St} {τ : IR.St} (hs : Start σ τ)
    (m b x : Nat) (rest : List Nat) (τ' : IR.St) (hr : runFn WI f m τ = .running b (x :: rest) τ') :
    (∃ (j p : Nat) (σ' : Bpf.St) (sl : Slot) (i : Instr), Bpf.run W P j 0 σ = .goto p σ' ∧ P[p]? = some sl ∧ decode sl = some i ∧ τ'.mem = σ'.mem ∧ τ'.trace = σ'.trace.map cutEv ∧
      ((∃ w c d src, i = .jcc w c d src 0) ∧ (f.insn x).op = .ja ∨ opOf i = some (f.insn x).op ∧ WorksOn f x τ' (operands σ' i))) ∨
    ∃ j, Bpf.run W P j 0 σ = .stuck := by
  have hw' := wellShaped_zero hw
  obtain ⟨C, h1, hG⟩ := graph_of hw' (map_idem P) (by simpa using hlen)
  rw [genBB_idem] at h1
  unfold lift at hf
  obtain ⟨C', h0, hf⟩ := Out.bind_eq_ok.1 hf
  rw [h1] at h0; cases h0
  obtain ⟨s, h2, h3⟩ := Out.bind_eq_ok.1 hf
  cases h3
  obtain ⟨g, hF⟩ := hG.fin h2
  have hcl' := clean_zero hw.legal hcl
  obtain ⟨k, hp⟩ := start_point hG hF (by simpa using hne) hs
  have hrun : ∀ j, Bpf.run W (P.map zeroJump) j ((0 : Nat) : Int) σ = Bpf.run W P j 0 σ := fun j => C49_zero_jumps P hw.legal W j 0 σ
  rcases back hW hG hF hcl' _ (Nat.lt_succ_self _) hp (show IR.run WI (toFn C s) m 0 (s.body 0) τ = _ from hr) with ⟨j, p, σ', sl', i', e1, e2, e3, e4, e5, e6, e7⟩ | ⟨j, e⟩
  · refine .inl ?_
    rw [hrun] at e1
    simp only [List.getElem?_map, Option.map_eq_some_iff] at e2
    obtain ⟨sl, e2, rfl⟩ := e2
    rcases decode_zeroJump hw.legal e2 with e | ⟨e, w, c, d, src, e'⟩
    · exact ⟨j, p, σ', sl, i', e1, e2, by rw [← e]; exact e3, e4, e5, .inr ⟨e6, e7⟩⟩
    · rw [e] at e3; cases e3
      exact ⟨j, p, σ', sl, _, e1, e2, e', e4, e5, .inl ⟨⟨w, c, d, src, rfl⟩, by simpa [opOf] using e6.symm⟩⟩
  · exact .inr ⟨j, by rw [← hrun]; exact e⟩

/-- Where the lifted function of `exL` is after `m` steps. -/
def exAt (m : Nat) : Option (Nat × Op × Option (List (BitVec 64))) :=
  match lift 100 exL with
  | .ok f =>
    match runFn exWI f m (exτ 3) with
    | .running b (x :: _) τ => some (b, (f.insn x).op, evalAll τ (f.insn x).vals)
    | _ => none
  | _ => none

/-- The theorem speaks about `exL` (see the example beside `C20_reaching_partial`): it is in the loop after two and after six steps, where the machine works on the same values. -/
example : exAt 2 = some (2, .add, some [0, 3]) ∧ exAt 6 = some (2, .add, some [3, 2]) := by decide +kernel

end Verif.Lift
