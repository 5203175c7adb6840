import Verif.Compile.Tight
import Verif.Live.Total
/-!
# The analyses and the rounds of the register allocator do not fail
-/
namespace Verif.Compile
open Verif Verif.IR Verif.Edit Verif.Cg
open Verif.Loc (hasResult)
open Verif.Norm (VrPos Reg Op)

/-- An error or a result: neither a failed internal check nor undefined behaviour. -/
def Safe {α : Type} (o : Out α) : Prop := o = .err ∨ ∃ x, o = .ok x

theorem Safe.bind {α β : Type} {o : Out α} {g : α → Out β} (h : Safe o) (hg : ∀ x, o = .ok x → Safe (g x)) : Safe (o >>= g) := by
  rcases h with rfl | ⟨x, rfl⟩
  · exact .inl rfl
  · rw [Out.ok_bind]; exact hg x rfl

theorem Safe.of_ok {α : Type} {o : Out α} (h : ∃ x, o = .ok x) : Safe o := .inr h

/-- Operations do not refer to themselves. -/
def NoSelf (f : Fn) (R : List Nat) : Prop := ∀ x, InR f R x → (f.insn x).op.binAlu = true → .insn x ∉ operands (f.insn x)

/-- What the rounds need beside `Holds`. -/
structure Steady (P : Nat → Prop) (R : List Nat) (f : Fn) : Prop where
  tight : Tight P f
  dom : ∀ x, InBody f x → P x
  up : ∀ n, f.next ≤ n → P n
  self : NoSelf f R

theorem insns_inR {f : Fn} {R : List Nat} {x : Nat} : x ∈ Live.insns f R ↔ InR f R x := by
  unfold Live.insns InR
  exact List.mem_flatMap

variable {s : Cg} {R : List Nat} {rg : Nat → Nat} {d : BitVec 16} {off : Int} {P : Nat → Prop}

theorem Holds.closed (h : Holds s R rg d off) (hg : Graph s.f) (ht : Steady P R s.f) : Live.Closed s.f R := by
  have hin : ∀ v ∈ Live.insns s.f R, ∀ u ∈ s.f.users v, InBody s.f u ∧ P v := fun v hv u hu => by
    have hb := (insns_inR.1 hv).inBody h.ready.sub
    exact ⟨(h.ready.users v (.inr (.inr hb))).2 u hu, ht.dom v hb⟩
  refine ⟨fun b hb => (hg.preds b hb).2, fun v hv u hu => ?_, fun v hv u hu hp => ?_⟩
  · obtain ⟨⟨b, hb, hx⟩, -⟩ := hin v hv u hu
    rw [h.ready.tidy.parent b hb u hx]
    exact hb
  · obtain ⟨hb, hP⟩ := hin v hv u hu
    have hc := ht.tight v hP (h.ready.tidy.lt v (.inr (.inr ((insns_inR.1 hv).inBody h.ready.sub)))) u hp
    have h1 : 0 < (s.f.users v).count u := List.count_pos_iff.2 hu
    have h2 : 0 < refs (s.f.insn u) v := by omega
    refine ⟨fun hn => ?_, fun b hb' => ?_⟩
    · unfold refs at h2
      rw [if_pos hp, h.ready.phis u hb hp] at h2
      simp only [List.count_nil, hp, reduceCtorEq, or_self, false_and, if_false, Nat.zero_add, Nat.add_zero] at h2
      obtain ⟨o, ho, ho'⟩ := List.countP_pos_iff.1 h2
      have : o.1 ∈ Live.phiBlocks (s.f.insn u) v := List.mem_map.2 ⟨o, List.mem_filter.2 ⟨ho, ho'⟩, rfl⟩
      rw [hn] at this
      simp at this
    · obtain ⟨o, ho, rfl⟩ := List.mem_map.1 hb'
      exact h.ready.labels u hb o (List.mem_filter.1 ho).1

/-- A value that is not the stack pointer has a vertex or is on the stack. -/
theorem Holds.rep (h : Holds s R rg d off) {v : Nat} (hv : v ≠ s.f.sp) : ∃ r, RA.rep (raOf R rg s) v = .ok r := by
  unfold RA.rep raOf
  dsimp only
  cases ha : (s.pos v).allocated with
  | false => exact ⟨_, rfl⟩
  | true =>
    simp only [if_true, Bool.not_true, Bool.false_eq_true, if_false]
    split
    · exact ⟨_, rfl⟩
    · rename_i hs
      have hs0 : (s.pos v).spilled = 0 := Classical.not_not.1 hs
      have : (s.pos v).reg.val < RA.colors := by
        have h1 := (s.pos v).reg.isLt
        have h2 : (s.pos v).reg.val ≠ 10 := fun e => hv (h.pos.r10 v ha hs0 (Fin.ext e))
        unfold RA.colors
        omega
      rw [if_pos this]
      exact ⟨_, rfl⟩

theorem Holds.rg_sp (h : Holds s R rg d off) {i : Nat} (hi : i < 10) : rg i ≠ s.f.sp := by
  intro e
  have h1 := h.pos.rg i hi
  rw [e, h.pos.sp] at h1
  have h2 := congrArg (fun p : VrPos => p.reg.val) h1
  simp only [Fin.val_ofNat] at h2
  have : (10 : Fin 11).val = 10 := rfl
  omega

/-- A value with a vertex among those of the graph, or on the stack. -/
def VertexIn (s : Cg) (R : List Nat) (rg : Nat → Nat) (v : Nat) : Prop := (∃ r, RA.rep (raOf R rg s) v = .ok r) ∧ ∀ r, RA.rep (raOf R rg s) v = .ok (some r) → r ∈ (raOf R rg s).allVar

/-- The analyses of a round give a result. -/
theorem analyse_total (h : Holds s R rg d off) (hg : Graph s.f) (ht : Steady P R s.f) (hall : ∀ b ∈ s.f.allBbs, b ∈ R) {rk : Nat → Nat} (hr : Live.Falling s.f rk) :
    ∃ l s1, Live.analyse s.f R (dst s.f) (raOf R rg s) = .ok (l, s1) ∧ ∀ u, ∀ v ∈ (s1.cg u).adj, v ∈ (raOf R rg s).allVar := by
  have hc := h.closed hg ht
  have hd : ∀ x e, dst s.f x = some e → e = x := by
    intro x e he
    unfold dst at he
    split at he
    · cases he
    · exact (Option.some.inj he).symm
  obtain ⟨l, el⟩ := Live.liveness_total hc hd (fun v => ((raOf R rg s).cg v).fin)
  have hw := Live.liveness_within (V := fun v => InR s.f R v ∧ (s.pos v).allocated = false ∧ (dst s.f v).isSome = true) hc (fun v hv hf hn => ⟨insns_inR.1 hv, hf, Option.isSome_iff_ne_none.2 hn⟩) el
  have nsp : ∀ {x}, InR s.f R x → x ≠ s.f.sp := fun {x} hx => by
    obtain ⟨b, hb, hxb⟩ := hx
    exact (h.ready.tidy.fixed b (h.ready.sub b hb) x hxb).1
  have fine : ∀ {v}, v ≠ s.f.sp → (∃ i, i < 10 ∧ v = rg i) ∨ InR s.f R v ∧ (dst s.f v).isSome = true → VertexIn s R rg v := fun {v} h1 h2 =>
    ⟨h.rep h1, fun r hr => by
      rcases RA.rep_some hr with ⟨e, k1, -⟩ | ⟨-, -, -, k1, e⟩
      · rw [e]
        rcases h2 with h2 | ⟨h2, h3⟩
        · exact mem_allVar.2 (.inl h2)
        · exact mem_allVar.2 (.inr ⟨h2, h3, k1⟩)
      · exact mem_allVar.2 (.inl ⟨_, k1, e⟩)⟩
  have resSome : ∀ {x}, hasResult (s.f.insn x).op = true → (dst s.f x).isSome = true := fun {x} hx => by rw [dst_of_result, if_pos hx]; rfl
  obtain ⟨c, ec, hQ⟩ := Live.conflictReqs_total (fun b hb => (hg.preds b hb).2) hr hw (R := R) (s := raOf R rg s)
    (Q := fun q => q.1 ≠ q.2 ∧ VertexIn s R rg q.1 ∧ VertexIn s R rg q.2)
    (fun x hx _ => h.ready.labels x ((insns_inR.1 hx).inBody h.ready.sub)) (fun q hq => by
      unfold RA.regPairs at hq
      obtain ⟨i, hi, hq⟩ := List.mem_flatMap.1 hq
      obtain ⟨j, hj, rfl⟩ := List.mem_map.1 hq
      obtain ⟨hj, hij⟩ := List.mem_filter.1 hj
      have hi := List.mem_range.1 hi
      have hj := List.mem_range.1 hj
      have hij : i < j := by simpa using hij
      unfold RA.colors at hi hj
      refine ⟨fun e => ?_, fine (h.rg_sp hi) (.inl ⟨i, hi, rfl⟩), fine (h.rg_sp hj) (.inl ⟨j, hj, rfl⟩)⟩
      have := h.rg_inj hi hj e
      omega) (fun x hx ho v hv hne => ⟨hne, fine (nsp hv.1) (.inr ⟨hv.1, hv.2.2⟩), fine (nsp (insns_inR.1 hx)) (.inr ⟨insns_inR.1 hx, resSome (by rw [ho]; rfl)⟩)⟩) (fun v hv i hi => by
      refine ⟨fun e => ?_, fine (h.rg_sp (by omega)) (.inl ⟨i, by omega, rfl⟩), fine (nsp hv.1) (.inr ⟨hv.1, hv.2.2⟩)⟩
      have h1 := h.pos.rg i (by omega)
      have h2 := hv.2.1
      rw [← show rg i = v from e, h1] at h2
      cases h2) (fun x hx q hq => by
      have hxR := insns_inR.1 hx
      have ok := h.shape.insn x hxR
      unfold Live.aluReqs at hq
      split at hq
      · rename_i a y hb hv
        rw [List.mem_singleton.1 hq]
        have hop : (s.f.insn x).op ≠ .phi := fun e => by rw [e] at hb; cases hb
        have hmem : (.insn y : Val) ∈ operands (s.f.insn x) := by unfold operands; rw [hv]; simp
        have hnsp : y ≠ s.f.sp := fun e => by
          subst e
          rcases ok.form with h1 | h1 | h1
          · rw [refs_eq] at h1
            have := List.count_pos_iff.2 hmem
            omega
          · rcases h1 with h1 | h1 <;> rw [h1] at hb <;> cases hb
          · rename_i e
            rw [hv] at e
            cases e
        refine ⟨fun e => ?_, fine (nsp hxR) (.inr ⟨hxR, resSome (by cases h0 : (s.f.insn x).op <;> rw [h0] at hb <;> first | rfl | cases hb)⟩), fine hnsp ?_⟩
        · have e : x = y := e
          subst e
          exact ht.self x hxR hb hmem
        · rcases h.shape.dom x hxR y hmem with e | e | ⟨e1, e2⟩
          · exact absurd e hnsp
          · exact .inl e
          · exact .inr ⟨e1, resSome e2⟩
      · cases hq)
  have hall' : ∀ q ∈ l.reqs ++ c, q.1 ≠ q.2 ∧ VertexIn s R rg q.1 ∧ VertexIn s R rg q.2 := by
    intro q hq
    rcases List.mem_append.1 hq with hq | hq
    · obtain ⟨h1, h2, b, hb, x, hx, h3⟩ := hw.reqs q hq
      have e := hd x _ h3
      rw [← e] at hx h3
      exact ⟨h1, fine (nsp h2.1) (.inr ⟨h2.1, h2.2.2⟩), fine (nsp ⟨b, hall b hb, hx⟩) (.inr ⟨⟨b, hall b hb, hx⟩, by rw [h3]; rfl⟩)⟩
    · exact hQ q hq
  obtain ⟨s1, e1⟩ := Live.conflicts_total (fun q hq => ⟨(hall' q hq).1, (hall' q hq).2.1.1, (hall' q hq).2.2.1⟩)
  refine ⟨l, s1, ?_, Live.conflicts_within e1 (fun q hq r hr => hr.elim ((hall' q hq).2.1.2 r) ((hall' q hq).2.2.2 r)) (fun u v hv => by cases hv)⟩
  unfold Live.analyse
  rw [el, Out.ok_bind, ec, Out.ok_bind, e1, Out.ok_bind]

end Verif.Compile
