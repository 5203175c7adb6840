import Verif.Compile.Place
import Verif.Compile.Compose
/-!
# The flow graph of the function without phis
-/
namespace Verif.Compile
open Verif Verif.IR Verif.Edit Verif.Cg
open Verif.Loc (Flow phisOf_append phisOf_phi places hasResult)
open Verif.Norm (VrPos Reg Op)
open Verif.RemPhi (Inv preOf tailOf pre_tail pre_jmp)
open Verif.Flatten (lastOf graphOf GraphFor)

variable {f0 : Fn} {pos0 : Nat → VrPos} {regs : Reg → Nat} {R done : List Nat} {C : Nat → List (Nat × Val)} {exc : Nat → Prop} {s : Cg}

/-- An instruction of the function without phis is an old one or a copy. -/
theorem inv_old (h : Inv f0 pos0 regs R done C exc s) (hs : ∀ b ∈ R, b ∈ f0.allBbs) (hf : Flow f0 R) {b x : Nat} (hb : b ∈ R) (hx : x ∈ s.f.body b) :
    (x ∈ f0.body b ∧ x ∉ done ∧ Like f0 s.f x) ∨ (s.f.insn x).op = .assign := by
  obtain ⟨N, e, -, h2⟩ := h.body b hb
  have hp := pre_tail f0 b
  have old : x ∈ f0.body b → x ∉ done → (x ∈ f0.body b ∧ x ∉ done ∧ Like f0 s.f x) := fun h1 h2 => by
    refine ⟨h1, h2, ?_⟩
    unfold Like
    rw [h.insn x ⟨b, hs b hb, h1⟩ h2]
    exact ⟨mapOps_op _ _, rfl, rfl⟩
  rw [e] at hx
  rcases List.mem_append.1 hx with hx | hx
  · obtain ⟨h3, h4⟩ := List.mem_filter.1 hx
    exact .inl (old (by rw [hp]; exact List.mem_append_left _ h3) (by simpa using h4))
  · rcases List.mem_append.1 hx with hx | hx
    · obtain ⟨o, -, ho, -⟩ := RemPhi.All2.left h2 x hx
      exact .inr (by rw [ho]; rfl)
    · have hxb : x ∈ f0.body b := by rw [hp]; exact List.mem_append_right _ hx
      refine .inl (old hxb (fun hd => ?_))
      rcases RemPhi.tail_cases hf hb with et | ⟨y, et, hj⟩
      · rw [et] at hx; cases hx
      · rw [et, List.mem_singleton] at hx
        rw [← hx, h.phis x hd] at hj
        cases hj

theorem inv_jumps (h : Inv f0 pos0 regs R done C exc s) (hs : ∀ b ∈ R, b ∈ f0.allBbs) (hf : Flow f0 R) : SameJumps R f0 s.f := by
  refine sameJumps_of (fun b hb x hx ho => ?_) (fun b hb x hx => ?_)
  · have hd : x ∉ done := fun hd => ho (h.phis x hd)
    refine ⟨h.stay b (hs b hb) x hx hd, ?_⟩
    unfold Like
    rw [h.insn x ⟨b, hs b hb, hx⟩ hd]
    exact ⟨mapOps_op _ _, rfl, rfl⟩
  · rcases inv_old h hs hf hb hx with h1 | h1
    · exact .inl ⟨h1.1, h1.2.2⟩
    · exact .inr (by rw [h1]; rintro ((h | h) | h) <;> cases h)

theorem inv_flow (h : Inv f0 pos0 regs R done C exc s) (hs : ∀ b ∈ R, b ∈ f0.allBbs) (hf : Flow f0 R) : Flow s.f R := by
  refine ⟨by rw [h.entry]; exact hf.entry, by rw [h.succs]; exact hf.succs, fun b hb x hx ho => ?_, fun b hb x hx ho => ?_, fun b hb pre z r e hc hnp => ?_⟩
  · obtain ⟨h1, h2, h3, h4⟩ := (inv_jumps h hs hf b hb).2 x hx (.inl (.inl ho))
    rw [h.succs, h3]
    exact hf.ja b hb x h1 (by rw [← h2]; exact ho)
  · obtain ⟨h1, h2, h3, h4⟩ := (inv_jumps h hs hf b hb).2 x hx (.inl (.inr ho))
    rw [h.succs, h3, h4]
    exact hf.cond b hb x h1 (by rw [← h2]; exact ho)
  · have hnd := h.tidy.nodup b (by rw [h.allBbs]; exact hs b hb)
    rcases inv_old h hs hf hb (x := z) (by rw [e]; simp) with ⟨h1, h2, h3⟩ | h1
    · rw [h3.1] at hc hnp
      obtain ⟨N, eb, -, -⟩ := h.body b hb
      have hj := ctl_jmp hc hnp
      have hzt : z ∈ tailOf f0 b := by
        rw [pre_tail f0 b] at h1
        rcases List.mem_append.1 h1 with h1 | h1
        · have := pre_jmp h1; rw [hj] at this; cases this
        · exact h1
      rcases RemPhi.tail_cases hf hb with et | ⟨y, et, -⟩
      · rw [et] at hzt; cases hzt
      · rw [et] at hzt eb
        rw [List.mem_singleton] at hzt
        subst hzt
        have hz2 : z ∉ r := by rw [e] at hnd; exact (nodup_mid hnd).2
        rcases List.eq_nil_or_concat r with er | ⟨t, y, er⟩
        · exact er
        · exfalso
          have e3 : pre ++ z :: r = (pre ++ z :: t) ++ [y] := by rw [er]; simp
          rw [e, e3] at eb
          have := congrArg List.getLast? eb
          simp only [List.getLast?_append, List.getLast?_singleton, Option.some_or] at this
          rw [er] at hz2
          apply hz2
          rw [← Option.some.inj this]; simp
    · rw [h1] at hc; cases hc

/-- Blocks with the same jumps have the same end for the layout. -/
theorem last_of_jumps {f g : Fn} (hf : Flow f R) (hg : Flow g R) (hj : SameJumps R f g) {b : Nat} (hb : b ∈ R) :
    (∀ t, lastOf f b = .ja t → lastOf g b = .ja t) ∧ (∀ t e, lastOf g b = .cond t e → lastOf f b = .cond t e) := by
  have key : ∀ {f : Fn} {x : Nat}, Flow f R → x ∈ f.body b → Jump (f.insn x).op → ∃ pre, f.body b = pre ++ [x] := by
    intro f x hf hx hj
    obtain ⟨A, B, e⟩ := List.append_of_mem hx
    have := hf.last b hb A x B e (by rcases hj with h | h <;> simp [Loc.control, h]) (by rintro h1; rw [h1] at hj; rcases hj with h | h <;> cases h)
    exact ⟨A, by rw [e, this]⟩
  constructor
  · intro t ht
    obtain ⟨pre, x, e, ho, rfl⟩ := Flatten.lastOf_ja ht
    obtain ⟨h1, h2⟩ := (hj b hb).1 x (by rw [e]; simp) (by rw [ho]; simp)
    obtain ⟨pre', e'⟩ := key hg h1 (.inl (h2.1.trans ho))
    unfold lastOf
    rw [e']
    simp only [List.getLast?_append, List.getLast?_singleton, Option.some_or]
    rw [if_pos (h2.1.trans ho), h2.2.1]
  · intro t e ht
    unfold lastOf at ht
    split at ht
    · cases ht
    · next x hx =>
      obtain ⟨pre, hp⟩ := List.getLast?_eq_some_iff.1 hx
      split at ht
      · cases ht
      · next hno =>
        split at ht
        · next hc =>
          obtain ⟨h1, h2⟩ := (hj b hb).2 x (by rw [hp]; simp) (.inl (.inr hc))
          obtain ⟨pre', e'⟩ := key hf h1 (.inr (by rw [← h2.1]; exact hc))
          unfold lastOf
          rw [e']
          simp only [List.getLast?_append, List.getLast?_singleton, Option.some_or]
          rw [if_neg (by rw [← h2.1]; exact hno), if_pos (by rw [← h2.1]; exact hc), ← h2.2.1, ← h2.2.2]
          exact ht
        · cases ht

theorem graphFor_of {f g : Fn} (hs : g.succs = f.succs) (hf : Flow f R) (hg : Flow g R) (hj : SameJumps R f g) : GraphFor (graphOf f) g R :=
  ⟨fun b => by rw [hs]; rfl, fun b hb => (last_of_jumps hf hg hj hb).1, fun b hb => (last_of_jumps hf hg hj hb).2⟩

end Verif.Compile
