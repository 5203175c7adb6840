import Verif.Lift.Good
import Verif.Layout.Props
/-!
# The flow graph of a lifted function can be laid out
-/
namespace Verif.Lift
open Verif Verif.Bpf Verif.IR Verif.GenBB
open Verif.Flatten (lastOf graphOf)
set_option linter.unusedSimpArgs false
set_option linter.unusedVariables false

variable {P : List Slot} {C : List Blk} {g : Gh} {s : LSt}

theorem nodup_two {l : List Nat} {a b : Nat} (hn : l.Nodup) (h : ∀ x, x ∈ l ↔ x = a ∨ x = b) (hab : a ≠ b) : l = [a, b] ∨ l = [b, a] := by
  have ha := (h a).2 (.inl rfl)
  have hb := (h b).2 (.inr rfl)
  match l, hn, h, ha, hb with
  | [], _, _, ha, _ => simp at ha
  | [x], _, _, ha, hb => simp at ha hb; exact absurd (ha.trans hb.symm) hab
  | [x, y], hn, h, _, _ =>
    have h1 := (h x).1 (by simp)
    have h2 := (h y).1 (by simp)
    have h3 : x ≠ y := by simpa using hn
    rcases h1 with rfl | rfl <;> rcases h2 with rfl | rfl
    · exact absurd rfl h3
    · exact .inl rfl
    · exact .inr rfl
    · exact absurd rfl h3
  | x :: y :: z :: l, hn, h, _, _ =>
    exfalso
    have h1 := (h x).1 (by simp)
    have h2 := (h y).1 (by simp)
    have h3 := (h z).1 (by simp)
    simp only [List.nodup_cons, List.mem_cons, not_or] at hn
    obtain ⟨⟨n1, n2, _⟩, ⟨n3, _⟩, _⟩ := hn
    omega

theorem nodup_one {l : List Nat} {a : Nat} (hn : l.Nodup) (h : ∀ x, x ∈ l ↔ x = a) : l = [a] := by
  have ha := (h a).2 rfl
  match l, hn, h, ha with
  | [], _, _, ha => simp at ha
  | [x], _, _, ha => simp at ha; rw [ha]
  | x :: y :: l, hn, h, _ =>
    exfalso
    have h1 := (h x).1 (by simp)
    have h2 := (h y).1 (by simp)
    subst h1; subst h2
    simp at hn

section
variable (h : Lifted P C g s) (hc : Closed P)
include h hc

theorem Lifted.starts {b : Nat} {k : Blk} (hk : C[b]? = some k) : k.start < P.length := by
  have hl := (h.graph.start k.start).1 ⟨b, k, hk, rfl⟩
  have hpos : 0 < P.length := by
    have := List.getElem?_eq_getElem h.pos
    obtain ⟨n, hn⟩ : ∃ n, n = P.length := ⟨_, rfl⟩
    cases hP : P with
    | nil => exact absurd hP hc.1
    | cons x l => simp
  rcases hl with h0 | ⟨p, sl, i, h1, h2, h3⟩
  · omega
  · have hp := lt_of_get h1
    have hf : ∀ q ∈ Bpf.flow P p, q < P.length := hc.2 p hp
    rw [flow_get h1, h2] at hf
    rcases h3 with ⟨off, h4, h5⟩ | ⟨w, c, d, src, off, rfl, h5⟩ | ⟨_, _, h5⟩
    · cases i with
      | ja o => cases h4; have := hf _ (by rw [flowI_ja]; exact List.mem_singleton.2 rfl); omega
      | jcc w c d src o => cases h4; have := hf (p + 1 + off.toInt) (by rw [flowI_jcc]; simp); omega
      | _ => cases h4
    · have := hf (p + 1) (by rw [flowI_jcc]; simp); omega
    · exact h5

theorem Lifted.nonempty {b : Nat} {k : Blk} (hk : C[b]? = some k) : k.start < k.stop := (h.graph.stop b k hk).2.2 (h.starts hc hk)

theorem Lifted.reachAll {b : Nat} (hb : b < C.length) : Reach C b := by
  have hk := List.getElem?_eq_getElem hb
  have h1 := h.starts hc hk
  obtain ⟨c, kc, hkc, hr, h4, h5⟩ := h.graph.reach_slot (by omega) (h.graph.ws.live _ h1)
  have := h.graph.one c b kc _ hkc hk h4 h5 (Nat.le_refl _) (h.nonempty hc hk)
  exact this ▸ hr

theorem Lifted.endAt {b : Nat} {k : Blk} (hk : C[b]? = some k) : Ending P C k.stop s.insn (g.code b) := by
  obtain ⟨k', hk', ⟨h1, _⟩ | ⟨_, h1⟩⟩ := h.ending (h.reachAll hc (lt_of_get hk))
  · have := h.starts hc hk'; omega
  · rw [hk] at hk'; cases hk'; exact h1

/-- Where a block goes. -/
inductive Goes (C : List Blk) (f : Fn) (b : Nat) (k : Blk) : Prop
  | fall (c : Nat) (kc : Blk) : (∀ x ∈ f.body b, ends (f.insn x).op = false) → succsOf C b = [c] → C[c]? = some kc → kc.start = k.stop → Goes C f b k
  | ja (x : Nat) (pre : List Nat) : f.body b = pre ++ [x] → (f.insn x).op = .ja → succsOf C b = [(f.insn x).bb1] → Goes C f b k
  | cond (x : Nat) (pre : List Nat) (k1 : Blk) : f.body b = pre ++ [x] → (f.insn x).op.condJmp = true → (f.insn x).bb1 ≠ (f.insn x).bb2 →
      succsOf C b = [(f.insn x).bb1, (f.insn x).bb2] ∨ succsOf C b = [(f.insn x).bb2, (f.insn x).bb1] → C[(f.insn x).bb1]? = some k1 → k1.start = k.stop → Goes C f b k
  | ret (x : Nat) (pre : List Nat) : f.body b = pre ++ [x] → (f.insn x).op = .ret → succsOf C b = [] → Goes C f b k

theorem Lifted.goes {b : Nat} {k : Blk} (hk : C[b]? = some k) : Goes C (toFn C s) b k := by
  have hne := h.nonempty hc hk
  have hsucc : ∀ t, t ∈ succsOf C b ↔ ∃ kt, C[t]? = some kt ∧ (kt.start : Int) ∈ Bpf.flow P (k.stop - 1) := by
    intro t
    rw [succs_get hk]
    constructor
    · intro ht
      obtain ⟨kt, hkt⟩ := h.graph.lt_succ hk ht
      exact ⟨kt, hkt, (((h.graph.edge b t k kt hk hkt).1).1 ht).2⟩
    · rintro ⟨kt, hkt, hf⟩
      exact ((h.graph.edge b t k kt hk hkt).1).2 ⟨hne, hf⟩
  have hnd : (succsOf C b).Nodup := by rw [succs_get hk]; exact (h.graph.edge b b k k hk hk).2.2.1
  have hbody : (toFn C s).body b = g.phis b ++ g.code b := h.fin.gi.inv.body b
  have hsame : ∀ (t t' : Nat) (kt kt' : Blk), C[t]? = some kt → C[t']? = some kt' → (kt.start : Int) = kt'.start → t = t' := fun t t' kt kt' a1 a2 a3 =>
    h.graph.inj t t' kt kt' a1 a2 (by omega)
  cases h.endAt hc hk with
  | fall h1 h2 =>
    have hlt : k.stop - 1 < P.length := by have := (h.graph.stop b k hk).2.1; omega
    have hst : k.stop < P.length := by have := hc.2 _ hlt k.stop (by rw [h2]; simp); omega
    rcases h.graph.flow b k hk (k.stop - 1) k.stop (by omega) (by omega) (by rw [h2]; simp) hst with ⟨_, h3⟩ | ⟨_, c, kc, h3, h4⟩
    · omega
    · refine .fall c kc ?_ (nodup_one hnd fun t => ?_) h3 h4
      · intro x hx
        rcases List.mem_append.1 (hbody ▸ hx) with hp | hp
        · rw [show ((toFn C s).insn x).op = .phi from (h.fin.gi.inv.phiR b x hp).2]; rfl
        · exact (plain_ends (h1 x hp)).1
      · rw [hsucc, h2]
        constructor
        · rintro ⟨kt, e1, e2⟩
          exact hsame t c kt kc e1 h3 (by rw [h4]; simpa using e2)
        · rintro rfl
          exact ⟨kc, h3, by rw [h4]; simp⟩
  | jump ys x sl i h1 h2 h3 h4 h5 =>
    have hb : (toFn C s).body b = (g.phis b ++ ys) ++ [x] := by rw [hbody, h1]; simp
    rw [flow_get h3, h4] at hsucc
    cases h5 with
    | @ja off _ e1 e2 =>
      obtain ⟨kt, e3, e4⟩ := bbAt_spec e2
      refine .ja x _ hb e1 (nodup_one hnd fun t => ?_)
      rw [hsucc, flowI_ja]
      constructor
      · rintro ⟨kt', e5, e6⟩
        exact hsame t _ kt' kt e5 e3 (by rw [List.mem_singleton] at e6; omega)
      · rintro rfl
        exact ⟨kt, e3, by rw [List.mem_singleton]; omega⟩
    | @cond w c d src off _ e1 e2 e3 =>
      obtain ⟨k1, e4, e5⟩ := bbAt_spec e2
      obtain ⟨k2, e6, e7⟩ := bbAt_spec e3
      have hoff : off.toInt ≠ 0 := by
        intro h0
        have h0 : off = 0 := BitVec.toInt_inj.1 (by simpa using h0)
        subst h0
        have e8 : zeroJump sl = sl := by
          have := get_zero h3
          rw [h.graph.nz, h3] at this
          exact (Option.some.inj this).symm
        obtain ⟨_, e9, _, _, e10⟩ := decode_class h4
        have e11 : sl.off = 0 := (e10 0 rfl).symm
        have e12 := e9.2 ⟨w, c, d, src, by rw [e11]⟩
        unfold zeroJump at e8
        rw [e12, e11, show (true && (0 : BitVec 16) == 0) = true from rfl, if_pos rfl] at e8
        rw [← e8] at e12
        exact absurd e12 (by decide)
      refine .cond x _ k1 hb e1 ?_ (nodup_two hnd (fun t => ?_) ?_) e4 (by omega)
      · intro he
        have he : (s.insn x).bb1 = (s.insn x).bb2 := he
        rw [he, e6] at e4
        cases e4
        omega
      · rw [hsucc, flowI_jcc]
        constructor
        · rintro ⟨kt', e8, e9⟩
          simp only [List.mem_cons, List.not_mem_nil, or_false] at e9
          rcases e9 with e9 | e9
          · exact .inr (hsame t _ kt' k2 e8 e6 (by omega))
          · exact .inl (hsame t _ kt' k1 e8 e4 (by omega))
        · rintro (rfl | rfl)
          · exact ⟨k1, e4, by simp only [List.mem_cons]; omega⟩
          · exact ⟨k2, e6, by simp only [List.mem_cons]; omega⟩
      · intro he
        have he : (s.insn x).bb1 = (s.insn x).bb2 := he
        rw [he, e6] at e4
        cases e4
        omega
    | ret e1 =>
      refine .ret x _ hb e1 ?_
      cases hl : succsOf C b with
      | nil => rfl
      | cons t ts =>
        obtain ⟨_, _, e2⟩ := (hsucc t).1 (by rw [hl]; simp)
        rw [flowI_exit] at e2
        simp at e2

end
end Verif.Lift
