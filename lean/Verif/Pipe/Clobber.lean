import Verif.Spec.Clobber
import Verif.Pipe.Total
/-!
# Helpers that spoil r1 to r5
-/
namespace Verif.Pipe
open Verif Verif.IR
open Verif.Bpf (Slot Instr decode Legal SlotReach Stale ReadsStale Helps flow flowI reads writes)
open Verif.Flatten (cut)

/-- The machine whose helpers leave r1 to r5 alone. -/
def keeps (M : Bpf.World) : Bpf.World where
  ldimm := M.ldimm
  call tr fid args mem := { M.call tr fid args mem with clob := fun k => args.getD (k - 1) 0 }

theorem keeps_agree {M : Bpf.World} {W : IR.World} (h : Helps M W) : Lift.Agree (keeps M) W := by
  refine ⟨h.ldimm, fun tr fid args mem hl => (h.ret tr fid args mem hl).symm, fun tr fid args mem hl => (h.mem tr fid args mem hl).symm, fun tr fid args mem k hl h1 h2 => ?_⟩
  have : k - 1 < args.length := by omega
  simp only [keeps, List.getD, List.getElem?_eq_getElem this, Option.getD_some]

/-- The states differ at most in registers that are spoilt. -/
structure Near (P : List Slot) (pc : Int) (σ μ : Bpf.St) : Prop where
  reg : ∀ p : Nat, pc = p → p < P.length → SlotReach P p ∧ ∀ r, σ.reg r = μ.reg r ∨ Stale P r p
  mem : σ.mem = μ.mem
  trace : σ.trace.map cut = μ.trace.map cut

/-- Results that differ at most in registers that are spoilt. -/
inductive NearRes (P : List Slot) : Bpf.Next → Bpf.Next → Prop
  | goto (pc : Int) (σ μ : Bpf.St) : Near P pc σ μ → NearRes P (.goto pc σ) (.goto pc μ)
  | done (x : BitVec 64) (σ μ : Bpf.St) : σ.mem = μ.mem → σ.trace.map cut = μ.trace.map cut → NearRes P (.done x σ) (.done x μ)
  | stuck : NearRes P .stuck .stuck

section
variable {P : List Slot} {p : Nat} {s : Slot} {i : Instr} {σ μ σ' μ' : Bpf.St} {M : Bpf.World} {W : IR.World}

/-- What is unspoilt stays so. -/
theorem Near.moved (hn : SlotReach P p ∧ ∀ r, σ.reg r = μ.reg r ∨ Stale P r p) (hs : P[p]? = some s) (hd : ∀ i', decode s = some i' → i' = i)
    (h1 : ∀ r, writes i ≠ some r → σ'.reg r = σ.reg r ∧ μ'.reg r = μ.reg r) (h2 : ∀ r, writes i = some r → σ'.reg r = μ'.reg r)
    (hm : σ'.mem = μ'.mem) (ht : σ'.trace.map cut = μ'.trace.map cut) {pc : Int} (hf : pc ∈ flow P p) : Near P pc σ' μ' := by
  refine ⟨fun q e hq => ?_, hm, ht⟩
  subst e
  refine ⟨.next hn.1 hf hq, fun r => ?_⟩
  by_cases hw : writes i = some r
  · exact .inl (h2 r hw)
  · rw [(h1 r hw).1, (h1 r hw).2]
    rcases hn.2 r with e | e
    · exact .inl e
    · exact .inr (.next e hs (fun i' hi' => by rw [hd i' hi']; exact hw) hf hq)

theorem flow_some (hs : P[p]? = some s) (hd : decode s = some i) : flow P p = flowI p (some i) := by
  unfold flow
  rw [hs, ← hd]

theorem args_take (h : ∀ r, 1 ≤ r → r ≤ 5 → r ≤ k → σ.reg r = μ.reg r) : σ.args.take k = μ.args.take k := by
  unfold Bpf.St.args
  match k with
  | 0 => rfl
  | 1 => simp only [List.take_succ_cons, List.take_zero, h 1 (by omega) (by omega) (by omega)]
  | 2 => simp only [List.take_succ_cons, List.take_zero, h 1 (by omega) (by omega) (by omega), h 2 (by omega) (by omega) (by omega)]
  | 3 => simp only [List.take_succ_cons, List.take_zero, h 1 (by omega) (by omega) (by omega), h 2 (by omega) (by omega) (by omega), h 3 (by omega) (by omega) (by omega)]
  | 4 => simp only [List.take_succ_cons, List.take_zero, h 1 (by omega) (by omega) (by omega), h 2 (by omega) (by omega) (by omega), h 3 (by omega) (by omega) (by omega), h 4 (by omega) (by omega) (by omega)]
  | k + 5 => simp only [List.take_succ_cons, List.take_nil, h 1 (by omega) (by omega) (by omega), h 2 (by omega) (by omega) (by omega), h 3 (by omega) (by omega) (by omega), h 4 (by omega) (by omega) (by omega), h 5 (by omega) (by omega) (by omega)]

theorem near_call (hW : Helps M W) (hs : P[p]? = some s) {fid : BitVec 32} (hd : decode s = some (.call fid)) (hn : Near P p σ μ) (hlt : p < P.length)
    (hr : ∀ r ∈ reads (.call fid), σ.reg r = μ.reg r) : Near P (p + 1) (Bpf.doCall M fid σ) (Bpf.doCall (keeps M) fid μ) := by
  have ha : σ.args.take (Lift.arity fid) = μ.args.take (Lift.arity fid) := args_take fun r h1 _ h3 => hr r (by
    unfold reads
    exact List.mem_map.2 ⟨r - 1, List.mem_range.2 (by omega), by omega⟩)
  have e1 : ∀ τ : Bpf.St, τ.args.length = 5 := fun _ => rfl
  have hret : (M.call σ.trace fid σ.args σ.mem).ret = (M.call μ.trace fid μ.args μ.mem).ret := by
    rw [hW.ret _ _ _ _ (e1 σ), hW.ret _ _ _ _ (e1 μ), ha, hn.mem, hn.trace]
  have hmem : (M.call σ.trace fid σ.args σ.mem).mem = (M.call μ.trace fid μ.args μ.mem).mem := by
    rw [hW.mem _ _ _ _ (e1 σ), hW.mem _ _ _ _ (e1 μ), ha, hn.mem, hn.trace]
  obtain ⟨h1, h2⟩ := hn.reg p rfl hlt
  have hf : ((p : Int) + 1) ∈ flow P p := by rw [flow_some hs hd]; exact List.mem_singleton.2 rfl
  refine ⟨fun q e hq => ?_, hmem, ?_⟩
  · rw [e] at hf
    refine ⟨.next h1 hf hq, fun r => ?_⟩
    by_cases hr0 : r = 0
    · subst hr0; exact .inl hret
    by_cases hr5 : 1 ≤ r ∧ r ≤ 5
    · exact .inr (.call h1 hs hd hr5.1 hr5.2 hf hq)
    · rcases h2 r with e | e
      · left
        simp only [Bpf.doCall, if_neg hr0, if_neg hr5, e]
      · refine .inr (.next e hs (fun i hi => ?_) hf hq)
        rw [hd] at hi
        cases hi
        intro e
        cases e
        exact hr0 rfl
  · simp only [Bpf.doCall, List.map_append, List.map_cons, List.map_nil, hn.trace]
    congr 1
    simp only [cut, ha]

theorem keeps_exec {i : Instr} (h : ∀ f, i ≠ .call f) : Bpf.execInstr (keeps M) i μ = Bpf.execInstr M i μ := by
  cases i <;> first | rfl | exact absurd rfl (h _)

theorem set_reg {σ : Bpf.St} {r : Nat} {v : BitVec 64} {q : Nat} (h : q ≠ r) : (σ.set r v).reg q = σ.reg q := if_neg h

theorem set_same {σ : Bpf.St} {r : Nat} {v : BitVec 64} : (σ.set r v).reg r = v := if_pos rfl

theorem step_near (hl : Legal P) (hno : ¬ ReadsStale P) (hW : Helps M W) {pc : Int} (hn : Near P pc σ μ) : NearRes P (Bpf.step M P pc σ) (Bpf.step (keeps M) P pc μ) := by
  unfold Bpf.step
  by_cases hpc : pc < 0
  · rw [if_pos hpc, if_pos hpc]; exact .stuck
  rw [if_neg hpc, if_neg hpc]
  obtain ⟨p, rfl⟩ : ∃ p : Nat, pc = p := ⟨pc.toNat, by omega⟩
  rw [Int.toNat_natCast]
  cases hs : P[p]? with
  | none => exact .stuck
  | some s =>
    have hlt : p < P.length := (List.getElem?_eq_some_iff.1 hs).1
    obtain ⟨h1, h2⟩ := hn.reg p rfl hlt
    dsimp only
    cases hd : decode s with
    | none => exact .stuck
    | some i =>
      have hr : ∀ r ∈ reads i, σ.reg r = μ.reg r := fun r hr => (h2 r).resolve_right fun e => hno ⟨p, s, i, r, hs, hd, hr, e⟩
      have hsrc : ∀ src : Bpf.Src, (∀ r ∈ src.regs, σ.reg r = μ.reg r) → src.val σ = src.val μ := by
        intro src h
        cases src with
        | reg r => exact h _ (List.mem_singleton.2 rfl)
        | imm c => rfl
      have hfl := flow_some hs hd
      have only : ∀ i', decode s = some i' → i' = i := fun i' h => by rw [hd] at h; cases h; rfl
      have stay : ∀ {pc : Int}, writes i = none → pc ∈ flow P p → Near P pc σ μ := fun hw hf =>
        Near.moved ⟨h1, h2⟩ hs only (fun r _ => ⟨rfl, rfl⟩) (fun r e => by rw [hw] at e; cases e) hn.mem hn.trace hf
      have wrote : ∀ {pc : Int} {d v w}, writes i = some d → v = w → pc ∈ flow P p → Near P pc (σ.set d v) (μ.set d w) := fun {pc d v w} hw e hf =>
        Near.moved (σ := σ) (μ := μ) (σ' := σ.set d v) (μ' := μ.set d w) ⟨h1, h2⟩ hs only (fun r hr => by
          have : r ≠ d := fun e => hr (by rw [hw, e])
          exact ⟨set_reg this, set_reg this⟩) (fun r e' => by
          rw [hw] at e'; cases e'
          rw [set_same, set_same, e]) hn.mem hn.trace hf
      cases i with
      | ja off => exact .goto _ _ _ (stay rfl (by rw [hfl]; exact List.mem_singleton.2 rfl))
      | jcc w c d src off =>
        dsimp only
        rw [hr d.toNat (by simp [reads]), hsrc src fun r h => hr r (by simp [reads, h])]
        split
        · exact .goto _ _ _ (stay rfl (by rw [hfl]; exact List.mem_cons_self))
        · exact .goto _ _ _ (stay rfl (by rw [hfl]; exact List.mem_cons_of_mem _ (List.mem_singleton.2 rfl)))
      | exit =>
        dsimp only
        rw [hr 0 (by simp [reads])]
        exact .done _ _ _ hn.mem hn.trace
      | ldimm d k =>
        dsimp only
        cases hs2 : P[p + 1]? with
        | none => exact .stuck
        | some s2 =>
          have hn1 : Near P ((p + 1 : Nat) : Int) (σ.set d.toNat (Bpf.ldVal M k s.imm s2.imm)) (μ.set d.toNat (Bpf.ldVal M k s.imm s2.imm)) := by
            refine wrote rfl rfl ?_
            rw [hfl]; exact List.mem_singleton.2 (by omega)
          obtain ⟨s2', e, e0⟩ := hl.wide p s d k hs hd
          rw [hs2] at e; cases e
          have hd2 : decode s2 = none := by unfold decode; rw [e0]; rfl
          have hlt2 : p + 1 < P.length := (List.getElem?_eq_some_iff.1 hs2).1
          refine .goto _ _ _ (Near.moved (i := .exit) (hn1.reg (p + 1) rfl hlt2) hs2 (fun i' h => by rw [hd2] at h; cases h) (fun _ _ => ⟨rfl, rfl⟩) (fun r e => by cases e) hn1.mem hn1.trace ?_)
          unfold flow
          rw [hs2]
          dsimp only
          rw [hd2]
          exact List.mem_singleton.2 (by omega)
      | alu w op d src =>
        refine .goto _ _ _ (wrote rfl ?_ (by rw [hfl]; exact List.mem_singleton.2 rfl))
        by_cases ho : op = .mov
        · subst ho
          rw [hsrc src fun r h => hr r (by simp [reads, h])]
          cases w <;> rfl
        · rw [hr d.toNat (by simp [reads, ho]), hsrc src fun r h => hr r (by simp [reads, ho, h])]
      | neg w d => exact .goto _ _ _ (wrote rfl (by rw [hr d.toNat (by simp [reads])]) (by rw [hfl]; exact List.mem_singleton.2 rfl))
      | swap be d wd =>
        simp only [Bpf.execInstr]
        rw [hr d.toNat (by simp [reads])]
        cases Bpf.swapVal be wd (μ.reg d.toNat) with
        | none => exact .stuck
        | some v => exact .goto _ _ _ (wrote rfl rfl (by rw [hfl]; exact List.mem_singleton.2 rfl))
      | ldx sx sz d s' off =>
        refine .goto _ _ _ (wrote rfl ?_ (by rw [hfl]; exact List.mem_singleton.2 rfl))
        rw [hr s'.toNat (by simp [reads]), hn.mem]
      | st sz d off imm =>
        refine .goto _ _ _ (Near.moved (σ := σ) (μ := μ) ⟨h1, h2⟩ hs only (fun r _ => ⟨by rfl, by rfl⟩) (fun r e => by cases e) ?_ (by exact hn.trace) (by rw [hfl]; exact List.mem_singleton.2 rfl))
        show Bpf.store _ _ _ _ = Bpf.store _ _ _ _
        rw [hr d.toNat (by simp [reads]), hn.mem]
      | stx sz d s' off =>
        refine .goto _ _ _ (Near.moved (σ := σ) (μ := μ) ⟨h1, h2⟩ hs only (fun r _ => ⟨by rfl, by rfl⟩) (fun r e => by cases e) ?_ (by exact hn.trace) (by rw [hfl]; exact List.mem_singleton.2 rfl))
        show Bpf.store _ _ _ _ = Bpf.store _ _ _ _
        rw [hr d.toNat (by simp [reads]), hr s'.toNat (by simp [reads]), hn.mem]
      | call fid => exact .goto _ _ _ (near_call hW hs hd hn hlt hr)

theorem run_near (hl : Legal P) (hno : ¬ ReadsStale P) (hW : Helps M W) : ∀ (n : Nat) {pc : Int} {σ μ : Bpf.St}, Near P pc σ μ → NearRes P (Bpf.run M P n pc σ) (Bpf.run (keeps M) P n pc μ)
  | 0, _, _, _, h => .goto _ _ _ h
  | n + 1, pc, σ, μ, h => by
    rw [Bpf.run, Bpf.run]
    have := step_near hl hno hW h
    generalize Bpf.step M P pc σ = a at this ⊢
    generalize Bpf.step (keeps M) P pc μ = b at this ⊢
    cases this with
    | goto pc' σ' μ' h' => exact run_near hl hno hW n h'
    | done x σ' μ' h1 h2 => exact .done _ _ _ h1 h2
    | stuck => exact .stuck

theorem near_start (P : List Slot) (σ : Bpf.St) : Near P 0 σ σ :=
  ⟨fun p e hp => by
    obtain rfl : p = 0 := by omega
    exact ⟨.first hp, fun _ => .inl rfl⟩, rfl, rfl⟩

end

variable {P : List Slot} {M : Bpf.World} {W : IR.World} {σ : Bpf.St}

theorem run_near_done (hl : Legal P) (hno : ¬ ReadsStale P) (hW : Helps M W) {n : Nat} {x σ'} (h : Bpf.run M P n 0 σ = .done x σ') :
    ∃ μ, Bpf.run (keeps M) P n 0 σ = .done x μ ∧ σ'.mem = μ.mem ∧ σ'.trace.map cut = μ.trace.map cut := by
  have := run_near hl hno hW n (near_start P σ)
  rw [h] at this
  generalize Bpf.run (keeps M) P n 0 σ = b at this ⊢
  cases this with
  | done _ _ μ h1 h2 => exact ⟨μ, rfl, h1, h2⟩

theorem run_near_goto (hl : Legal P) (hno : ¬ ReadsStale P) (hW : Helps M W) {n : Nat} (h : ∃ pc σ', Bpf.run M P n 0 σ = .goto pc σ') :
    ∃ pc μ, Bpf.run (keeps M) P n 0 σ = .goto pc μ := by
  obtain ⟨pc, σ', h⟩ := h
  have := run_near hl hno hW n (near_start P σ)
  rw [h] at this
  generalize Bpf.run (keeps M) P n 0 σ = b at this ⊢
  cases this with
  | goto _ _ μ h1 => exact ⟨pc, μ, rfl⟩

theorem Lifts.spoil (hl : Legal P) (hno : ¬ ReadsStale P) (hW : Helps M W) {f : Fn} {τ : IR.St} (h : Lifts (keeps M) P σ W f τ) : Lifts M P σ W f τ := by
  refine lifts_of (fun n x σ' e => ?_) fun e m => h.forever (fun n => run_near_goto hl hno hW (e n)) m
  obtain ⟨μ, e1, e2, e3⟩ := run_near_done hl hno hW e
  obtain ⟨m, τ', e4, e5⟩ := h.returns n x μ e1
  exact ⟨m, τ', e4, e5.1.trans e2.symm, e5.2.trans e3.symm⟩

theorem Rewrites.spoil (hl : Legal P) (hno : ¬ ReadsStale P) (hW : Helps M W) {N : Bpf.World} {Q : List Slot} {μ : Bpf.St} {frame : BitVec 64 → Prop}
    (h : Rewrites (keeps M) P σ N Q μ (SameOutside frame)) : Rewrites M P σ N Q μ (SameOutside frame) := by
  refine rewrites_of (fun n x σ' e => ?_) fun e m => h.forever (fun n => run_near_goto hl hno hW (e n)) m
  obtain ⟨ν, e1, e2, e3⟩ := run_near_done hl hno hW e
  obtain ⟨m, τ', e4, e5⟩ := h.returns n x ν e1
  exact ⟨m, τ', e4, fun a ha => (e5.1 a ha).trans (by rw [e2]), e5.2.trans e3.symm⟩

end Verif.Pipe
