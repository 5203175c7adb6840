import Verif.Spec.Shape
import Verif.IR.OkCheck
/-!
# A test for `Shape` on concrete functions, for the examples
-/
namespace Verif.IR
open Verif Verif.Edit

def shapeB (f : Fn) : Bool :=
  (liveList f).all (fun x => decide (x < f.next)) &&
  (liveList f).all (fun x => (operands (f.insn x)).all fun v => match v with | .insn y => decide (y ∈ liveList f) | _ => true) &&
  f.allBbs.all (fun b => (f.body b).all fun x => decide (f.parent x = b) && decide (x ≠ f.sp) && decide (x ∉ f.args)) &&
  f.allBbs.all (fun b => decide (f.body b).Nodup) &&
  f.allBbs.all (fun b => (codeOf f b).all fun x => decide ((f.insn x).op ≠ .phi)) &&
  f.allBbs.all (fun b => (f.body b).dropLast.all fun x => !ends (f.insn x).op) &&
  f.allBbs.all (fun b => (f.body b).all fun x => (f.insn x).op != .phi || (f.insn x).phi.all fun o => decide (o.1 ∈ f.allBbs)) &&
  f.allBbs.all (fun b => (f.body b).all fun x => ((f.insn x).op != .ja || decide ((f.insn x).bb1 ∈ f.succs b)) &&
    (!(f.insn x).op.condJmp || (decide ((f.insn x).bb1 ∈ f.succs b) && decide ((f.insn x).bb2 ∈ f.succs b)))) &&
  f.allBbs.all (fun a => f.allBbs.all fun b => decide (b ∈ f.succs a ↔ a ∈ f.preds b)) &&
  f.allBbs.all (fun a => decide (f.succs a).Nodup && (f.succs a).all (fun b => decide (b ∈ f.allBbs)) &&
    decide (f.preds a).Nodup && (f.preds a).all (fun b => decide (b ∈ f.allBbs))) &&
  decide (f.entry ∈ f.allBbs)

theorem shape_of_check {f : Fn} (h : shapeB f = true) : Shape f := by
  simp only [shapeB, Bool.and_eq_true, List.all_eq_true, decide_eq_true_eq, Bool.or_eq_true] at h
  obtain ⟨⟨⟨⟨⟨⟨⟨⟨⟨⟨h1, h2⟩, h3⟩, h4⟩, h5⟩, h6⟩, h7⟩, h8⟩, h9⟩, h10⟩, h11⟩ := h
  refine ⟨⟨fun x hx => h1 x (mem_liveList.2 hx), ?_, fun b hb x hx => (h3 b hb x hx).1.1, h4,
    fun b hb x hx => ⟨(h3 b hb x hx).1.2, (h3 b hb x hx).2⟩⟩, ⟨h9, fun a ha => ⟨(h10 a ha).1.1.1, (h10 a ha).1.1.2⟩,
    fun a ha => ⟨(h10 a ha).1.2, (h10 a ha).2⟩⟩, ?_, h11, h5, ?_, ?_⟩
  · intro x y hx hr
    rw [refs_eq, List.count_pos_iff] at hr
    have := h2 x (mem_liveList.2 hx) _ hr
    exact mem_liveList.1 (by simpa using this)
  · intro b hb x hx
    have := h8 b hb x hx
    refine ⟨fun h => ?_, fun h => ?_⟩
    · simpa [h] using this.1
    · simpa [h] using this.2
  · intro b hb l z r hl hz
    rcases List.eq_nil_or_concat r with h | ⟨r', y, h⟩
    · exact h
    · rw [List.concat_eq_append] at h
      subst h
      have := h6 b hb z (by
        rw [hl]
        have : l ++ z :: (r' ++ [y]) = (l ++ z :: r') ++ [y] := by simp
        rw [this, List.dropLast_concat]
        simp)
      rw [hz] at this
      cases this
  · intro b hb x hx hp o ho
    have := h7 b hb x hx
    simp only [hp, bne_self_eq_false, Bool.false_eq_true, false_or] at this
    exact this o ho

end Verif.IR
