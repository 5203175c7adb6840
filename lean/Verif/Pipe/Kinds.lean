import Verif.Spec.Kinds
import Verif.Lift.Insns
import Verif.Lift.Zero
import Verif.Lift.Accept
import Verif.GenBB.Decode
import Verif.Stack.Props
import Verif.Edit.Users
/-!
# The lifted function of a program whose registers have kinds
-/
namespace Verif.Pipe
open Verif Verif.IR Verif.Lift
open Verif.Bpf (Slot Instr Src AluOp Kind Typed decode fits after result clearSrc frameOff FrameIn flow leader jumpOffset)
open Verif.GenBB (Blk PreInsn zeroJump)
open Verif.Edit (operands raw refs_eq)
open Verif.Stack (Form NoHole)

theorem typed_zero {P : List Slot} (hl : Bpf.Legal P) {T : Nat → Nat → Kind} (h : Typed P T) : Typed (P.map zeroJump) T := by
  refine ⟨h.base, fun p hp => h.lead p ?_, fun p s i hs hd => ?_, fun p s q hs hq r hr => ?_⟩
  · rcases hp with e | ⟨p', s, i, h1, h2, h3⟩
    · exact .inl e
    · obtain ⟨s', h1', rfl⟩ := GenBB.get_map h1
      rcases decode_zeroJump hl h1' with e | ⟨e, w, c, d, src, e'⟩
      · rw [e] at h2
        exact .inr ⟨p', s', i, h1', h2, by simpa using h3⟩
      · rw [e] at h2; cases h2
        refine .inr ⟨p', s', _, h1', e', .inl ⟨0, rfl, ?_⟩⟩
        rcases h3 with ⟨off, h4, h5⟩ | ⟨_, _, _, _, _, h4, _⟩ | ⟨h4, _⟩
        · cases h4; exact h5
        · cases h4
        · cases h4
  · obtain ⟨s', h1, rfl⟩ := GenBB.get_map hs
    rcases decode_zeroJump hl h1 with e | ⟨e, _⟩
    · rw [e] at hd; exact h.fit p s' i h1 hd
    · rw [e] at hd; cases hd; rfl
  · obtain ⟨s', h1, rfl⟩ := GenBB.get_map hs
    have := h.step p s' q h1 ((flow_zero hl p q).1 hq) r hr
    rcases decode_zeroJump hl h1 with e | ⟨e, w, c, d, src, e'⟩
    · rw [e]; exact this
    · rw [e]; rw [e'] at this; exact this

theorem frameIn_zero {P : List Slot} (hl : Bpf.Legal P) {B : BitVec 16 → Prop} (h : FrameIn B P) : FrameIn B (P.map zeroJump) := by
  intro s hs i off hd ho
  obtain ⟨p, hp⟩ := List.getElem?_of_mem hs
  obtain ⟨s', h1, rfl⟩ := GenBB.get_map hp
  rcases decode_zeroJump hl h1 with e | ⟨e, _⟩
  · rw [e] at hd; exact h s' (List.mem_of_getElem? h1) i off hd ho
  · rw [e] at hd; cases hd; cases ho

/-- What a value is when a register of that kind holds it; `A` are the instructions allowed as addresses. -/
def Den (A : Nat → Prop) : Kind → Val → Prop
  | .frame, v => v = .insn 0
  | .addr, v => ∃ y, v = .insn y ∧ y ≠ 0 ∧ A y
  | .any, v => v ≠ .insn 0 ∧ ∀ k c ct b, v = .const k c ct b → k = .plain

variable {A : Nat → Prop} {B : BitVec 16 → Prop}

theorem Den.any {k : Kind} {v : Val} (h : Den A k v) (hk : k ≠ .frame) : Den A .any v := by
  cases k with
  | frame => exact absurd rfl hk
  | any => exact h
  | addr =>
    obtain ⟨y, rfl, hy, _⟩ := h
    exact ⟨fun e => hy (by cases e; rfl), fun _ _ _ _ e => by cases e⟩

theorem Den.le {a b : Kind} {v : Val} (h : Den A a v) (hk : a.le b = true) : Den A b v := by
  unfold Kind.le at hk
  simp only [Bool.or_eq_true, Bool.and_eq_true, beq_iff_eq] at hk
  rcases hk with rfl | ⟨rfl, rfl⟩
  · exact h
  · exact h.any (by simp)

theorem den_imm (c : BitVec 32) : Den A .any (.const .plain (c.signExtend 64) .w32 .none) :=
  ⟨by simp, fun _ _ _ _ e => by cases e; rfl⟩

/-- What is to hold of the instructions of the lifted function. -/
structure Held (A : Nat → Prop) (B : BitVec 16 → Prop) (i : Insn) : Prop where
  form : Form 0 0 .plain i
  near : raw i.op = true → i.addrKind = .rawoff → B i.addrOff
  base : raw i.op = true → ∃ y, i.addr = .insn y ∧ (y = 0 ∨ A y)

theorem form_other {i : Insn} (h : ∀ v ∈ operands i, Den A .any v) (ha : raw i.op = true → i.addrKind = .plain) : Form 0 0 .plain i :=
  .other (by rw [refs_eq]; exact List.count_eq_zero.2 fun hm => (h _ hm).1 rfl) ⟨fun v hv => (h v hv).2, ha⟩

/-- The kinds of the registers hold of the values in them. -/
def Fit (A : Nat → Prop) (t : Nat → Kind) (m : M) : Prop := ∀ r v, m r = some v → r < 11 ∧ Den A (t r) v

theorem src_any {t : Nat → Kind} {m : M} (hm : Fit A t m) {src : Src} (h : clearSrc t src = true) {v : Val} (e : rdOpd m (opd src) = some v) : Den A .any v := by
  cases src with
  | imm c => cases e; exact den_imm c
  | reg s => exact (hm _ _ e).2.any (by simpa [clearSrc] using h)

theorem rdOpds_two {m : M} {a b : Opd} {vs : List Val} (h : rdOpds m [a, b] = some vs) : ∃ u v, rdOpd m a = some u ∧ rdOpd m b = some v ∧ vs = [u, v] := by
  obtain ⟨u, us, h1, h2, rfl⟩ := rdOpds_cons.1 h
  obtain ⟨v, ws, h3, h4, rfl⟩ := rdOpds_cons.1 h2
  cases h4
  exact ⟨u, v, h1, h3, rfl⟩

theorem rdOpds_one {m : M} {a : Opd} {vs : List Val} (h : rdOpds m [a] = some vs) : ∃ u, rdOpd m a = some u ∧ vs = [u] := by
  obtain ⟨u, us, h1, h2, rfl⟩ := rdOpds_cons.1 h
  cases h2
  exact ⟨u, h1, rfl⟩

theorem rdOpds_mem {m : M} {os : List Opd} {vs : List Val} (h : rdOpds m os = some vs) : ∀ v ∈ vs, ∃ o ∈ os, rdOpd m o = some v := by
  induction os generalizing vs with
  | nil => cases h; simp
  | cons o os ih =>
    obtain ⟨w, ws, h1, h2, rfl⟩ := rdOpds_cons.1 h
    intro v hv
    rcases List.mem_cons.1 hv with rfl | hv
    · exact ⟨o, by simp, h1⟩
    · obtain ⟨o', ho, e⟩ := ih h2 v hv
      exact ⟨o', by simp [ho], e⟩

/-- An instruction without an address whose operands are not the frame pointer. -/
theorem held_vals {i : Insn} (hr : raw i.op = false) (hp : i.op ≠ .phi) (h : ∀ v ∈ i.vals, Den A .any v) : Held A B i :=
  ⟨form_other (fun v hv => by
      unfold Edit.operands at hv
      rw [hr, if_neg hp] at hv
      exact h v (by simpa using hv)) (fun e => by rw [hr] at e; cases e), fun e => (by rw [hr] at e; cases e), fun e => by rw [hr] at e; cases e⟩

/-- A load or a store. -/
theorem held_access {i : Insn} {t : Nat → Kind} {m : M} (hm : Fit A t m) (h10 : t 10 = .frame) {s : BitVec 4} (ho : i.op = .loadraw ∨ i.op = .storeraw) (hk : i.addrKind = offKind s)
    (ha : m s.toNat = some i.addr) (hs : s = 10 ∨ t s.toNat = .addr) (hB : s = 10 → B i.addrOff) (h : ∀ v ∈ i.vals, Den A .any v) : Held A B i := by
  have hd := (hm _ _ ha).2
  have hp : i.op ≠ .phi := by rcases ho with e | e <;> simp [e]
  by_cases e : s = 10
  · subst e
    rw [show (10 : BitVec 4).toNat = 10 from rfl, h10] at hd
    have hd' : i.addr = .insn 0 := hd
    refine ⟨.access ho hd' hk (fun v hv => (h v hv).1) ?_ ?_, fun _ _ => hB rfl, fun _ => ⟨0, hd', .inl rfl⟩⟩
    · have := BitVec.le_toInt i.addrOff; simp at this ⊢; omega
    · have := BitVec.toInt_lt (x := i.addrOff); simp at this ⊢; omega
  · rw [hs.resolve_left e] at hd
    obtain ⟨y, e1, e2, e3⟩ := hd
    refine ⟨form_other (A := A) (fun v hv => ?_) (fun _ => by rw [hk, offKind, if_neg e]), fun _ e' => (by rw [hk, offKind, if_neg e] at e'; cases e'), fun _ => ⟨y, e1, .inr e3⟩⟩
    unfold Edit.operands at hv
    rw [if_neg hp] at hv
    simp only [List.append_nil, List.mem_append] at hv
    rcases hv with hv | hv
    · exact h v hv
    · split at hv
      · rw [List.mem_singleton] at hv; subst hv
        rw [e1]; exact ⟨fun e' => e2 (by cases e'; rfl), fun _ _ _ _ e' => by cases e'⟩
      · simp at hv

theorem fits_alu (t : Nat → Kind) (w op d src) : fits t (.alu w op d src) = (decide (op = .mov) || (clearSrc t src && (t d.toNat != .frame || (decide (op = .add) && w && match src with | .imm _ => true | .reg _ => false)))) := rfl
theorem fits_neg (t : Nat → Kind) (w d) : fits t (.neg w d) = (t d.toNat != .frame) := rfl
theorem fits_swap (t : Nat → Kind) (be d wd) : fits t (.swap be d wd) = (t d.toNat != .frame) := rfl
theorem fits_ldx (t : Nat → Kind) (sx sz d s off) : fits t (.ldx sx sz d s off) = (decide (s = 10) || t s.toNat == .addr) := rfl
theorem fits_st (t : Nat → Kind) (sz d off imm) : fits t (.st sz d off imm) = (decide (d = 10) || t d.toNat == .addr) := rfl
theorem fits_stx (t : Nat → Kind) (sz d s off) : fits t (.stx sz d s off) = ((decide (d = 10) || t d.toNat == .addr) && t s.toNat != .frame) := rfl
theorem fits_jcc (t : Nat → Kind) (w c d src off) : fits t (.jcc w c d src off) = (t d.toNat != .frame && clearSrc t src) := rfl
theorem fits_call (t : Nat → Kind) (fid) : fits t (.call fid) = (decide (fid ≠ 6) && (t 1 != .frame && (t 2 != .frame && (t 3 != .frame && (t 4 != .frame && t 5 != .frame))))) := rfl
theorem fits_exit (t : Nat → Kind) : fits t .exit = (t 0 != .frame) := rfl

theorem planI_result {C : List Blk} {defd : Nat → Bool} {q : PreInsn} {i : Instr} {j : Insn} {a : Option Nat} {os : List Opd} {d : Option Nat} (t : Nat → Kind)
    (hf : fits t i = true) (hsrc : ∀ f, i = .call f → q.slot.src = 0 ∧ f = q.slot.imm) (hp : planI C defd q i = .ok (.emit j a os d)) : result t i = d.map (fun d => (d, .addr)) := by
  cases i with
  | alu w op dd src =>
    simp only [planI] at hp
    split at hp
    · cases hp
    · rename_i hm
      cases hp
      simp only [result, if_neg hm]; rfl
  | neg w dd => simp only [planI] at hp; cases hp; rfl
  | swap be dd wd => simp only [planI] at hp; cases hp; rfl
  | ldimm dd k => simp only [planI] at hp; split at hp <;> cases hp; rfl
  | ldx sx sz dd s off => simp only [planI] at hp; cases hp; rfl
  | st sz dd off imm => simp only [planI] at hp; cases hp; rfl
  | stx sz dd s off => simp only [planI] at hp; cases hp; rfl
  | call fid =>
    simp only [planI] at hp
    obtain ⟨h0, rfl⟩ := hsrc fid rfl
    have h6 : q.slot.imm ≠ 6 := by
      simp only [fits_call, Bool.and_eq_true, decide_eq_true_eq] at hf
      exact hf.1
    obtain ⟨h1, -⟩ := planCall_ok hp h0 h6
    cases h1
    rfl
  | ja off =>
    simp only [planI] at hp
    obtain ⟨_, _, hp⟩ := Out.bind_eq_ok.1 hp
    cases hp; rfl
  | jcc w c dd src off =>
    simp only [planI] at hp
    cases hc2 : irCond c with
    | none => rw [hc2] at hp; cases hp
    | some o =>
      rw [hc2] at hp
      dsimp only at hp
      obtain ⟨_, _, hp⟩ := Out.bind_eq_ok.1 hp
      obtain ⟨_, _, hp⟩ := Out.bind_eq_ok.1 hp
      cases hp; rfl
  | exit => simp only [planI] at hp; cases hp; rfl

theorem planI_mov {C : List Blk} {defd : Nat → Bool} {q : PreInsn} {i : Instr} {d : Nat} {o : Opd} (hsrc : ∀ f, i = .call f → q.slot.src = 0 ∧ f = q.slot.imm) (t : Nat → Kind)
    (hf : fits t i = true) (hp : planI C defd q i = .ok (.mov d o)) : ∃ k, result t i = some (d, k) ∧ ((∃ s, o = .reg s ∧ k = t s) ∨ ((∃ c, o = .imm c) ∧ k = .any)) := by
  cases i with
  | alu w op dd src =>
    simp only [planI] at hp
    split at hp
    · rename_i hm
      cases hp
      refine ⟨_, rfl, ?_⟩
      rw [if_pos hm]
      cases src with
      | reg s => exact .inl ⟨s.toNat, rfl, rfl⟩
      | imm c => exact .inr ⟨⟨c, rfl⟩, rfl⟩
    · cases hp
  | neg w dd => simp only [planI] at hp; cases hp
  | swap be dd wd => simp only [planI] at hp; cases hp
  | ldimm dd k => simp only [planI] at hp; split at hp <;> cases hp
  | ldx sx sz dd s off => simp only [planI] at hp; cases hp
  | st sz dd off imm => simp only [planI] at hp; cases hp
  | stx sz dd s off => simp only [planI] at hp; cases hp
  | call fid =>
    simp only [planI] at hp
    obtain ⟨h0, rfl⟩ := hsrc fid rfl
    have h6 : q.slot.imm ≠ 6 := by
      simp only [fits_call, Bool.and_eq_true, decide_eq_true_eq] at hf
      exact hf.1
    obtain ⟨h1, -⟩ := planCall_ok hp h0 h6
    cases h1
  | ja off =>
    simp only [planI] at hp
    obtain ⟨_, _, hp⟩ := Out.bind_eq_ok.1 hp
    cases hp
  | jcc w c dd src off =>
    simp only [planI] at hp
    cases hc2 : irCond c with
    | none => rw [hc2] at hp; cases hp
    | some o =>
      rw [hc2] at hp
      dsimp only at hp
      obtain ⟨_, _, hp⟩ := Out.bind_eq_ok.1 hp
      obtain ⟨_, _, hp⟩ := Out.bind_eq_ok.1 hp
      cases hp
  | exit => simp only [planI] at hp; cases hp

/-- The instruction made from a bytecode instruction. -/
theorem held_of {C : List Blk} {defd : Nat → Bool} {q : PreInsn} {i : Instr} {j : Insn} {a : Option Nat} {os : List Opd} {d : Option Nat} {t : Nat → Kind} {m : M}
    (hm : Fit A t m) (h10 : t 10 = .frame) (hB : ∀ off, frameOff i = some off → B off) (hf : fits t i = true) (hsrc : ∀ f, i = .call f → q.slot.src = 0 ∧ f = q.slot.imm) (hp : planI C defd q i = .ok (.emit j a os d))
    {av : Val} {vs : List Val} (ea : rdAddr m j a = some av) (ev : rdOpds m os = some vs) : Held A B { j with addr := av, vals := vs } := by
  cases i with
  | alu w op dd src =>
    simp only [planI] at hp
    split at hp
    · cases hp
    · rename_i hmv
      cases hp
      obtain ⟨u, v, e1, e2, rfl⟩ := rdOpds_two ev
      simp only [fits_alu, Bool.or_eq_true, decide_eq_true_eq, Bool.and_eq_true, bne_iff_ne, ne_eq] at hf
      obtain ⟨h1, h2⟩ := hf.resolve_left hmv
      have hv := src_any hm h1 e2
      by_cases hd : t dd.toNat = .frame
      · obtain ⟨⟨rfl, rfl⟩, h3⟩ := h2.resolve_left (fun h => h hd)
        cases src with
        | reg s => cases h3
        | imm c =>
          cases e2
          have hu : u = .insn 0 := by have := (hm _ _ e1).2; rw [hd] at this; exact this
          subst hu
          exact ⟨.add _ _ _ rfl rfl rfl, fun e => (by cases e), fun e => by cases e⟩
      · have hu := (hm _ _ e1).2.any hd
        refine held_vals (by cases op <;> first | exact absurd rfl hmv | rfl) (by cases op <;> first | exact absurd rfl hmv | simp [irAlu]) fun w' hw => ?_
        simp only [List.mem_cons, List.not_mem_nil, or_false] at hw
        rcases hw with rfl | rfl
        · exact hu
        · exact hv
  | neg w dd =>
    simp only [planI] at hp; cases hp
    obtain ⟨u, e1, rfl⟩ := rdOpds_one ev
    exact held_vals rfl (by simp) fun w' hw => by
      rw [List.mem_singleton] at hw; subst hw
      exact (hm _ _ e1).2.any (by simpa [fits_neg] using hf)
  | swap be dd wd =>
    simp only [planI] at hp; cases hp
    obtain ⟨u, e1, rfl⟩ := rdOpds_one ev
    exact held_vals (by cases be <;> rfl) (by cases be <;> simp) fun w' hw => by
      rw [List.mem_singleton] at hw; subst hw
      exact (hm _ _ e1).2.any (by simpa [fits_swap] using hf)
  | ldimm dd k =>
    simp only [planI] at hp; split at hp <;> cases hp
    cases ev
    exact held_vals rfl (by simp) (by simp)
  | ldx sx sz dd s off =>
    simp only [planI] at hp; cases hp
    cases ev
    exact held_access hm h10 (.inl rfl) rfl ea (by simpa [fits_ldx] using hf) (fun e => hB off (if_pos e)) (by simp)
  | st sz dd off imm =>
    simp only [planI] at hp; cases hp
    obtain ⟨u, e1, rfl⟩ := rdOpds_one ev
    cases e1
    exact held_access hm h10 (.inr rfl) rfl ea (by simpa [fits_st] using hf) (fun e => hB off (if_pos e)) fun w' hw => by
      rw [List.mem_singleton] at hw; subst hw
      exact den_imm imm
  | stx sz dd s off =>
    simp only [planI] at hp; cases hp
    obtain ⟨u, e1, rfl⟩ := rdOpds_one ev
    simp only [fits_stx, Bool.and_eq_true, bne_iff_ne, ne_eq] at hf
    exact held_access hm h10 (.inr rfl) rfl ea (by simpa using hf.1) (fun e => hB off (if_pos e)) fun w' hw => by
      rw [List.mem_singleton] at hw; subst hw
      exact (hm _ _ e1).2.any hf.2
  | call fid =>
    simp only [planI] at hp
    obtain ⟨h0, rfl⟩ := hsrc fid rfl
    simp only [fits_call, Bool.and_eq_true, decide_eq_true_eq, bne_iff_ne, ne_eq] at hf
    obtain ⟨h6, c1, c2, c3, c4, c5⟩ := hf
    obtain ⟨h1, h2⟩ := planCall_ok hp h0 h6
    cases h1
    refine held_vals rfl (by simp) fun v hv => ?_
    obtain ⟨o, ho, e⟩ := rdOpds_mem ev v hv
    unfold argOpds at ho
    obtain ⟨k, hk, rfl⟩ := List.mem_map.1 ho
    have hk := List.mem_range.1 hk
    refine (hm _ _ e).2.any ?_
    have : k = 0 ∨ k = 1 ∨ k = 2 ∨ k = 3 ∨ k = 4 := by omega
    rcases this with rfl | rfl | rfl | rfl | rfl <;> assumption
  | ja off =>
    simp only [planI] at hp
    obtain ⟨_, _, hp⟩ := Out.bind_eq_ok.1 hp
    cases hp
    cases ev
    exact held_vals rfl (by simp) (by simp)
  | jcc w c dd src off =>
    simp only [planI] at hp
    cases hc2 : irCond c with
    | none => rw [hc2] at hp; cases hp
    | some o =>
      rw [hc2] at hp
      dsimp only at hp
      obtain ⟨_, _, hp⟩ := Out.bind_eq_ok.1 hp
      obtain ⟨_, _, hp⟩ := Out.bind_eq_ok.1 hp
      cases hp
      obtain ⟨u, v, e1, e2, rfl⟩ := rdOpds_two ev
      simp only [fits_jcc, Bool.and_eq_true, bne_iff_ne, ne_eq] at hf
      have hu := (hm _ _ e1).2.any hf.1
      have hv := src_any hm hf.2 e2
      have : raw o = false ∧ o ≠ .phi := by cases c <;> simp only [irCond] at hc2 <;> cases hc2 <;> exact ⟨rfl, by simp⟩
      refine held_vals this.1 this.2 fun w' hw => ?_
      simp only [List.mem_cons, List.not_mem_nil, or_false] at hw
      rcases hw with rfl | rfl
      · exact hu
      · exact hv
  | exit =>
    simp only [planI] at hp
    cases hp
    obtain ⟨u, e1, rfl⟩ := rdOpds_one ev
    exact held_vals rfl (by simp) fun w' hw => by
      rw [List.mem_singleton] at hw; subst hw
      exact (hm _ _ e1).2.any (by simpa [fits_exit] using hf)

/-- What the registers hold behind an instruction. -/
def Behind (A : Nat → Prop) (t : Nat → Kind) (m : M) : Prop := ∀ r v, m r = some v → r < 11 ∧ (r = 10 → v = .insn 0) ∧ (r < 10 → Den A (t r) v)

theorem Behind.fit {t t' : Nat → Kind} {m : M} (h : Behind A t m) (h10 : t' 10 = .frame) (hle : ∀ r, r < 10 → (t r).le (t' r) = true) : Fit A t' m := by
  intro r v e
  obtain ⟨h1, h2, h3⟩ := h r v e
  refine ⟨h1, ?_⟩
  by_cases hr : r = 10
  · subst hr; rw [h10]; exact h2 rfl
  · exact (h3 (by omega)).le (hle r (by omega))

theorem behind_wr {t : Nat → Kind} {m : M} (hm : Fit A t m) (h10 : t 10 = .frame) {i : Instr} {d : Nat} {k : Kind} (hd : d < 11) (hr : result t i = some (d, k)) {w : Val} (hw : Den A k w) :
    Behind A (after t (some i)) (wr m d w) := by
  intro r v e
  unfold wr at e
  split at e
  · rename_i hd'
    obtain ⟨h1, h2⟩ := hm r v e
    refine ⟨h1, fun e' => ?_, fun h => ?_⟩
    · subst e'; rw [h10] at h2; exact h2
    · simp only [after, Option.bind_some, hr]
      rw [if_neg (by omega)]; exact h2
  · rename_i hd'
    unfold upd at e
    split at e
    · rename_i he
      cases e
      refine ⟨by omega, fun e' => absurd (he.symm.trans e') hd', fun _ => ?_⟩
      simp only [after, Option.bind_some, hr]
      rw [if_pos he]; exact hw
    · rename_i he
      obtain ⟨h1, h2⟩ := hm r v e
      refine ⟨h1, fun e' => ?_, fun h => ?_⟩
      · subst e'; rw [h10] at h2; exact h2
      · simp only [after, Option.bind_some, hr]
        rw [if_neg he]; exact h2

theorem step_held {C : List Blk} {defd : Nat → Bool} {q : PreInsn} {i : Instr} {t : Nat → Kind} {m m1 : M} {a : Act} {ins : Nat → Insn} {xs : List Nat}
    (hm : Fit A t m) (h10 : t 10 = .frame) (hB : ∀ off, frameOff i = some off → B off) (hf : fits t i = true) (hsrc : ∀ f, i = .call f → q.slot.src = 0 ∧ f = q.slot.imm) (hp : planI C defd q i = .ok a)
    (h : Tr1 ins a m xs m1) (hA : ∀ x ∈ xs, x ≠ 0 ∧ A x) : Behind A (after t (some i)) m1 ∧ ∀ x ∈ xs, Held A B (ins x) := by
  cases h with
  | @mov d o m v e1 e2 =>
    refine ⟨?_, by simp⟩
    obtain ⟨k, hk, h⟩ := planI_mov hsrc t hf hp
    refine behind_wr hm h10 e2 hk ?_
    rcases h with ⟨s, rfl, rfl⟩ | ⟨⟨c, rfl⟩, rfl⟩
    · exact (hm _ _ e1).2
    · cases e1; exact den_imm c
  | @emit j a os d m av vs x e1 e2 e3 e4 =>
    have hr := planI_result t hf hsrc hp
    refine ⟨?_, fun y hy => ?_⟩
    · cases d with
      | none =>
        intro r v e
        obtain ⟨h1, h2⟩ := hm r v e
        refine ⟨h1, fun e' => by subst e'; rw [h10] at h2; exact h2, fun _ => ?_⟩
        simp only [after, Option.bind_some, hr, Option.map_none]
        exact h2
      | some d => exact behind_wr hm h10 e4 hr ⟨x, rfl, hA x (by simp)⟩
    · rw [List.mem_singleton] at hy; subst hy
      rw [e3]
      exact held_of hm h10 hB hf hsrc hp e1 e2

theorem chain_held {P : List Slot} {C : List Blk} {T : Nat → Nat → Kind} (hT : Typed P T) (hB : FrameIn B P) (hw : Bpf.WellShaped P) {ins : Nat → Insn} {stop p : Nat} {qs : List PreInsn}
    (hc : Chain P stop p qs) : ∀ {as : List Act} {m m1 : M} {xs : List Nat}, Planned C qs as → Tr ins as m xs m1 → Fit A (T p) m →
    (∀ p', p ≤ p' → p' + 1 < stop → ¬ Bpf.isTerminator P p') → (∀ x ∈ xs, x ≠ 0 ∧ A x) →
    (p < stop → ∀ q : Nat, (q : Int) ∈ flow P (stop - 1) → Fit A (T q) m1) ∧ ∀ x ∈ xs, Held A B (ins x) := by
  induction hc with
  | nil =>
    intro as m m1 xs hp h _ _ _
    cases hp; cases h
    exact ⟨fun h => absurd h (by omega), by simp⟩
  | @one p sl i x qs h1 h2 h3 h4 h5 ih =>
    intro as m m1 xs hp h hm hin hA
    cases hp with
    | @cons _ _ a as defd hpl _ hps =>
    cases h with
    | @cons _ _ _ ys m2 zs _ h0 h1' =>
      rw [plan_decode C defd _ h3] at hpl
      obtain ⟨b1, b2⟩ := step_held hm (hT.base p) (fun off e => hB sl (List.mem_of_getElem? h2) _ off h3 e) (hT.fit p sl i h2 h3) (fun f e => by subst e; exact decode_call h3) hpl h0 (fun x hx => hA x (by simp [hx]))
      have key : ∀ q : Nat, (q : Int) ∈ flow P p → Fit A (T q) m2 := fun q hq => b1.fit (hT.base q) fun r hr => by
        have := hT.step p sl q h2 hq r hr
        rwa [h3] at this
      by_cases hs : p + 1 < stop
      · obtain ⟨c1, c2⟩ := ih hps h1' (key (p + 1) (flow_next h2 (hin p (Nat.le_refl _) hs))) (fun p' hp' => hin p' (by omega)) (fun x hx => hA x (by simp [hx]))
        refine ⟨fun _ => c1 hs, fun x hx => ?_⟩
        rcases List.mem_append.1 hx with hx | hx
        · exact b2 x hx
        · exact c2 x hx
      · have hs' : p + 1 = stop := by omega
        subst hs'
        cases h5 with
        | nil =>
          cases hps; cases h1'
          refine ⟨fun _ q hq => key q (by simpa using hq), fun x hx => b2 x (by simpa using hx)⟩
        | one h => omega
        | wide h => omega
  | @wide p sl s2 d k qs h1 h2 h2' h3 h5 ih =>
    intro as m m1 xs hp h hm hin hA
    cases hp with
    | @cons _ _ a as defd hpl _ hps =>
    cases h with
    | @cons _ _ _ ys m2 zs _ h0 h1' =>
      rw [plan_decode C defd _ h3] at hpl
      obtain ⟨b1, b2⟩ := step_held hm (hT.base p) (fun off e => hB sl (List.mem_of_getElem? h2) _ off h3 e) (hT.fit p sl _ h2 h3) (fun f e => by cases e) hpl h0 (fun x hx => hA x (by simp [hx]))
      have hz : decode s2 = none := by
        obtain ⟨s2', e1, e2⟩ := hw.legal.wide p sl d k h2 h3
        rw [h2'] at e1; cases e1
        exact GenBB.decode_zero e2
      have k1 : Fit A (T (p + 1)) m2 := b1.fit (hT.base _) fun r hr => by
        have := hT.step p sl (p + 1) h2 (flow_next h2 (hin p (Nat.le_refl _) h1)) r hr
        rwa [h3] at this
      have key : ∀ q : Nat, (q : Int) ∈ flow P (p + 1) → Fit A (T q) m2 := fun q hq => Behind.fit (t := T (p + 1)) (fun r v e => by
          obtain ⟨e1, e2⟩ := k1 r v e
          exact ⟨e1, fun h => by subst h; rw [hT.base] at e2; exact e2, fun _ => e2⟩) (hT.base q) fun r hr => by
        have := hT.step (p + 1) s2 q h2' hq r hr
        rw [hz] at this
        exact this
      by_cases hs : p + 2 < stop
      · obtain ⟨c1, c2⟩ := ih hps h1' (key (p + 2) (flow_next h2' (hin (p + 1) (by omega) hs))) (fun p' hp' => hin p' (by omega)) (fun x hx => hA x (by simp [hx]))
        refine ⟨fun _ => c1 hs, fun x hx => ?_⟩
        rcases List.mem_append.1 hx with hx | hx
        · exact b2 x hx
        · exact c2 x hx
      · have hs' : p + 2 = stop := by omega
        subst hs'
        cases h5 with
        | nil =>
          cases hps; cases h1'
          refine ⟨fun _ q hq => key q (by simpa using hq), fun x hx => b2 x (by simpa using hx)⟩
        | one h => omega
        | wide h => omega

section
variable {P : List Slot} {C : List Blk} {g : Gh} {s : LSt} {T : Nat → Nat → Kind}

/-- The phis that stand for registers that hold addresses, and all instructions that are no phis. -/
def Aim (C : List Blk) (g : Gh) (T : Nat → Nat → Kind) (y : Nat) : Prop := ∀ b k, C[b]? = some k → y ∈ g.phis b → T k.start (g.preg y) = .addr

theorem aim_code (h : Lifted P C g s) {b x : Nat} (hx : x ∈ g.code b) : x ≠ 0 ∧ Aim C g T x := by
  have hm : x ∈ s.body b := by rw [h.fin.gi.inv.body]; simp [hx]
  refine ⟨by have := (h.fin.gi.inv.rng b x hm).1; omega, fun c k _ hp => ?_⟩
  have hm' : x ∈ s.body c := by rw [h.fin.gi.inv.body]; simp [hp]
  have := h.fin.gi.inv.disj b c x hm hm'
  subst this
  have hn := h.fin.gi.inv.nodup b
  rw [h.fin.gi.inv.body] at hn
  exact absurd rfl ((List.nodup_append.1 hn).2.2 x hp x hx)

theorem block_held (h : Lifted P C g s) (hT : Typed P T) (hB : FrameIn B P) {b : Nat} {k : Blk} (hb : Reach C b) (hk : C[b]? = some k) (hm : Fit (Aim C g T) (T k.start) (g.start b)) :
    (k.start < k.stop → ∀ q : Nat, (q : Int) ∈ flow P (k.stop - 1) → Fit (Aim C g T) (T q) (look s b)) ∧ ∀ x ∈ g.code b, Held (Aim C g T) B (s.insn x) := by
  have hp := h.fin.gi.fil b (h.fin.filled hb)
  have hi : insnsOf C b = k.insns := by simp only [insnsOf, hk]
  rw [hi] at hp
  exact chain_held hT hB h.graph.ws (h.graph.chain b k hk) hp (h.fin.gi.inv.tr b) hm (h.graph.inner b k hk) fun x hx => aim_code h hx

theorem edge_flow (h : Lifted P C g s) {c b : Nat} {kc kb : Blk} (hc : C[c]? = some kc) (hb : C[b]? = some kb) (hm : b ∈ succsOf C c) :
    kc.start < kc.stop ∧ (kb.start : Int) ∈ flow P (kc.stop - 1) := by
  simp only [succsOf, hc] at hm
  exact (h.graph.edge c b kc kb hc hb).1.1 hm

theorem start_fit (h : Lifted P C g s) (hT : Typed P T) (hB : FrameIn B P) {b : Nat} (hb : Reach C b) : ∀ k, C[b]? = some k → Fit (Aim C g T) (T k.start) (g.start b) := by
  obtain ⟨n, hn⟩ := hb
  have lead : ∀ (b : Nat) (k : Blk), C[b]? = some k → ∀ r, r ≠ 10 → T k.start r ≠ .frame := fun b k hk => hT.lead _ ((h.graph.start _).1 ⟨b, k, hk, rfl⟩)
  have phi : ∀ (b : Nat) (k : Blk) (x : Nat), C[b]? = some k → x ∈ g.phis b → g.preg x < 10 → Den (Aim C g T) (T k.start (g.preg x)) (.insn x) := by
    intro b k x hk hx hr
    have hm : x ∈ s.body b := by rw [h.fin.gi.inv.body]; simp [hx]
    have h0 := (h.fin.gi.inv.rng b x hm).1
    have hl := lead b k hk (g.preg x) (by omega)
    cases e : T k.start (g.preg x) with
    | frame => exact absurd e hl
    | any => exact ⟨fun e => by cases e; omega, fun _ _ _ _ e => by cases e⟩
    | addr =>
      refine ⟨x, rfl, by omega, fun c kc hc hp => ?_⟩
      have hm' : x ∈ s.body c := by rw [h.fin.gi.inv.body]; simp [hp]
      have := h.fin.gi.inv.disj b c x hm hm'
      subst this
      rw [hk] at hc; cases hc
      exact e
  have arg : ∀ (k : Blk) (r : Nat), C[0]? = some k → 1 ≤ r → r ≤ 5 → Den (Aim C g T) (T k.start r) (.insn r) := by
    intro k r hk h1 h5
    have hl := lead 0 k hk r (by omega)
    cases e : T k.start r with
    | frame => exact absurd e hl
    | any => exact ⟨fun e => by cases e; omega, fun _ _ _ _ e => by cases e⟩
    | addr =>
      refine ⟨r, rfl, by omega, fun c kc hc hp => ?_⟩
      have hm' : r ∈ s.body c := by rw [h.fin.gi.inv.body]; simp [hp]
      have := (h.fin.gi.inv.rng c r hm').1
      omega
  induction hn with
  | zero =>
    intro k hk r v hv
    cases h.fin.gi.inv.just _ r _ hv with
    | sp h1 h2 => subst h1; rw [hT.base]; exact ⟨by omega, h2⟩
    | arg h1 h2 h3 h4 => subst h4; exact ⟨by omega, arg k r hk h2 h3⟩
    | copy p h1 => exact absurd rfl h1
    | phi x h1 => exact absurd rfl h1
  | @succ c b n hc hm ih =>
    intro k hk r v hv
    cases h.fin.gi.inv.just _ r _ hv with
    | sp h1 h2 => subst h1; rw [hT.base]; exact ⟨by omega, h2⟩
    | arg h1 h2 h3 h4 => subst h1; subst h4; exact ⟨by omega, arg k r hk h2 h3⟩
    | phi x h1 h2 h3 h4 h5 h6 => subst h3; subst h6; exact ⟨by omega, phi b k x hk h4 h2⟩
    | copy p h1 h2 h3 h4 h5 =>
      have hp : c ∈ predsOf C b := (h.fin.edge c b).2 hm
      rw [h4, List.mem_singleton] at hp
      subst hp
      obtain ⟨kc, hkc⟩ : ∃ kc, C[c]? = some kc := ⟨_, List.getElem?_eq_getElem (Reach.lt h.graph h.pos ⟨n, hc⟩)⟩
      obtain ⟨e1, e2⟩ := edge_flow h hkc hk hm
      exact (block_held h hT hB ⟨n, hc⟩ hkc (ih kc hkc)).1 e1 _ e2 r v h5

/-- Every instruction of the lifted function, and the operands of the phis that stand for addresses. -/
theorem lifted_held (h : Lifted P C g s) (hT : Typed P T) (hB : FrameIn B P) {b x : Nat} (hx : x ∈ s.body b) :
    Held (Aim C g T) B (s.insn x) ∧ ((s.insn x).op = .phi → (∀ v ∈ Edit.operands (s.insn x), Den (Aim C g T) .any v) ∧ (Aim C g T x → ∀ v ∈ Edit.operands (s.insn x), Den (Aim C g T) .addr v)) := by
  have hr := (h.mem hx).1
  obtain ⟨k, hk⟩ : ∃ k, C[b]? = some k := ⟨_, List.getElem?_eq_getElem (Reach.lt h.graph h.pos hr)⟩
  have hx' := hx
  rw [h.fin.gi.inv.body] at hx'
  rcases List.mem_append.1 hx' with hp | hc
  · have ho := (h.fin.gi.inv.phiR b x hp).2
    have he := h.books.phi x ho
    obtain ⟨c1, c2⟩ := h.fin.complete hr hp
    have hl : g.preg x ≠ 10 := by
      intro e
      have := (h.fin.gi.inv.phiR b x hp).1
      rw [e] at this
      cases h.fin.gi.inv.just _ _ _ this with
      | sp h1 h2 => cases h2; have := (h.fin.gi.inv.rng b 0 hx).1; omega
      | arg _ _ h3 => omega
      | copy _ _ h2 => omega
      | phi _ _ h2 => omega
    have hv : ∀ v ∈ Edit.operands (s.insn x), Den (Aim C g T) (T k.start (g.preg x)) v := by
      intro v hv
      unfold Edit.operands at hv
      rw [he] at hv
      simp only [Lift.phi0, List.nil_append, if_pos, raw] at hv
      simp at hv
      obtain ⟨p, hp'⟩ := hv
      have hq := (c2 _ hp').2
      have hmem : p ∈ predsOf C b := by rw [← c1]; exact List.mem_map_of_mem (f := Prod.fst) hp'
      have hrp := h.fin.live b hr p hmem
      obtain ⟨kp, hkp⟩ : ∃ k, C[p]? = some k := ⟨_, List.getElem?_eq_getElem (Reach.lt h.graph h.pos hrp)⟩
      obtain ⟨e1, e2⟩ := edge_flow h hkp hk ((h.fin.edge p b).1 hmem)
      exact ((block_held h hT hB hrp hkp (start_fit h hT hB hrp kp hkp)).1 e1 _ e2 _ _ hq).2
    have hany : ∀ v ∈ Edit.operands (s.insn x), Den (Aim C g T) .any v := fun v hm => (hv v hm).any (hT.lead _ ((h.graph.start _).1 ⟨b, k, hk, rfl⟩) _ hl)
    refine ⟨⟨form_other hany (fun e => by rw [ho] at e; cases e), fun e => (by rw [ho] at e; cases e), fun e => by rw [ho] at e; cases e⟩, fun _ => ⟨hany, fun ha v hm => ?_⟩⟩
    have := hv v hm
    rwa [ha b k hk hp] at this
  · have := (block_held h hT hB hr hk (start_fit h hT hB hr k hk)).2 x hc
    refine ⟨this, fun ho => ?_⟩
    have := code_op (h.fin.gi.inv.tr b) (h.fin.gi.fil b (h.fin.filled hr)) (h.fin.dec b) x hc
    exact absurd ho this

end

end Verif.Pipe
