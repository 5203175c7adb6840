import Verif.IR.Erase
/-!
# A test for `Ok` on concrete functions, for the examples
-/
namespace Verif.IR
open Verif Verif.Edit

def liveList (f : Fn) : List Nat := f.sp :: f.args ++ f.allBbs.flatMap f.body

theorem mem_liveList {f : Fn} {x : Nat} : x ∈ liveList f ↔ Live f x := by
  simp only [liveList, List.cons_append, List.mem_cons, List.mem_append, List.mem_flatMap, Live, InBody]

def okB (f : Fn) : Bool :=
  (liveList f).all (fun x => decide (x < f.next)) &&
  (liveList f).all (fun x => (operands (f.insn x)).all fun v => match v with | .insn y => decide (y ∈ liveList f) | _ => true) &&
  f.allBbs.all (fun b => (f.body b).all fun x => decide (f.parent x = b) && decide (x ≠ f.sp) && decide (x ∉ f.args)) &&
  f.allBbs.all (fun b => decide (f.body b).Nodup) &&
  (liveList f).all (fun y => (liveList f).all fun x => decide ((f.users y).count x ≤ refs (f.insn x) y) &&
    (decide (refs (f.insn x) y = 0) || decide (x ∈ f.users y))) &&
  (liveList f).all (fun y => (f.users y).all fun x => decide (x ∈ liveList f)) &&
  f.allBbs.all (fun b => (codeOf f b).all fun x => decide ((f.insn x).op ≠ .phi))

theorem ok_of_check {f : Fn} (h : okB f = true) (ho : ∀ b, b ∉ f.allBbs → f.body b = []) : Ok f := by
  simp only [okB, Bool.and_eq_true, List.all_eq_true, decide_eq_true_eq, Bool.or_eq_true] at h
  obtain ⟨⟨⟨⟨⟨⟨h1, h2⟩, h3⟩, h4⟩, h5⟩, h6⟩, h7⟩ := h
  refine ⟨⟨fun x hx => h1 x (mem_liveList.2 hx), ?_, fun b hb x hx => (h3 b hb x hx).1.1, h4,
    fun b hb x hx => ⟨(h3 b hb x hx).1.2, (h3 b hb x hx).2⟩⟩, ?_, ?_, ho⟩
  · intro x y hx hr
    rw [refs_eq, List.count_pos_iff] at hr
    have := h2 x (mem_liveList.2 hx) _ hr
    exact mem_liveList.1 (by simpa using this)
  · intro y hy
    refine ⟨fun x hx => ⟨(h5 y (mem_liveList.2 hy) x (mem_liveList.2 hx)).1, fun hr => ?_⟩,
      fun x hx => mem_liveList.1 (h6 y (mem_liveList.2 hy) x hx)⟩
    rcases (h5 y (mem_liveList.2 hy) x (mem_liveList.2 hx)).2 with h | h
    · omega
    · exact h
  · intro b x hx
    by_cases hb : b ∈ f.allBbs
    · exact h7 b hb x hx
    · have := mem_codeOf hx
      rw [ho b hb] at this; cases this

end Verif.IR
