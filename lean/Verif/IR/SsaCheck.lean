import Verif.IR.OkCheck
import Verif.Spec.Ssa
/-!
# A test for `Ssa` on concrete functions, for the examples

`dm b` are blocks that are on every way to `b`, other than `b`.
-/
namespace Verif.IR
open Verif Verif.Edit

def targets (f : Fn) (a : Nat) : List Nat :=
  ((f.body a).flatMap fun x => if (f.insn x).op = .ja then [(f.insn x).bb1] else if (f.insn x).op.condJmp then [(f.insn x).bb1, (f.insn x).bb2] else []) ++ f.succs a

theorem Edge.target {f : Fn} {a b : Nat} (h : Edge f a b) : b ∈ targets f a := by
  unfold targets
  rw [List.mem_append, List.mem_flatMap]
  cases h with
  | ja x hx h1 h2 => exact .inl ⟨x, hx, by simp [h1, h2]⟩
  | cond x hx h1 h2 =>
    refine .inl ⟨x, hx, ?_⟩
    rw [if_neg (by intro e; rw [e] at h1; cases h1), if_pos h1]
    rcases h2 with h2 | h2 <;> simp [h2]
  | fall h => exact .inr (by rw [h]; simp)

def domB (f : Fn) (dm : Nat → List Nat) : Bool :=
  decide (f.entry ∈ f.allBbs) && decide (dm f.entry = []) &&
  f.allBbs.all fun a => (targets f a).all fun b => decide (b ∈ f.allBbs) && (dm b).all fun d => decide (d = a) || decide (d ∈ dm a)

theorem walk_dom {f : Fn} {dm : Nat → List Nat} (hc : domB f dm = true) {l : List Nat} (hw : Walk f l) :
    ∀ b h, l = b :: h → b ∈ f.allBbs ∧ ∀ d ∈ dm b, d ∈ h := by
  simp only [domB, Bool.and_eq_true, List.all_eq_true, decide_eq_true_eq, Bool.or_eq_true] at hc
  obtain ⟨⟨h1, h2⟩, h3⟩ := hc
  induction hw with
  | entry =>
    intro b h e
    simp only [List.cons.injEq] at e
    obtain ⟨rfl, rfl⟩ := e
    exact ⟨h1, by rw [h2]; simp⟩
  | step a b h hw he ih =>
    intro b' h' e
    simp only [List.cons.injEq] at e
    obtain ⟨rfl, rfl⟩ := e
    obtain ⟨i1, i2⟩ := ih a h rfl
    obtain ⟨t1, t2⟩ := h3 a i1 b he.target
    refine ⟨t1, fun d hd => ?_⟩
    rcases t2 d hd with rfl | hd
    · simp
    · exact List.mem_cons_of_mem _ (i2 d hd)

theorem dom_of_check {f : Fn} {dm : Nat → List Nat} (hc : domB f dm = true) {a b : Nat} (h : a = b ∨ a ∈ dm b) : Dom f a b := by
  intro m hw
  rcases h with rfl | h
  · simp
  · exact List.mem_cons_of_mem _ ((walk_dom hc hw b m rfl).2 a h)

def inBodyB (f : Fn) (y : Nat) : Bool := decide (y ∈ f.allBbs.flatMap f.body)

theorem inBodyB_iff {f : Fn} {y : Nat} : inBodyB f y = true ↔ InBody f y := by
  simp only [inBodyB, decide_eq_true_eq, List.mem_flatMap, InBody]

def ssaB (f : Fn) (dm : Nat → List Nat) : Bool :=
  domB f dm &&
  (f.allBbs.all fun b => (f.body b).all fun z =>
    if (f.insn z).op = .phi then
      ((f.insn z).phi.all fun o => match o.2 with
        | .insn y => !inBodyB f y || decide (f.parent y = o.1) || decide (f.parent y ∈ dm o.1)
        | _ => true) &&
      (f.allBbs.all fun p => !decide (b ∈ targets f p) || decide (p ∈ (f.insn z).phi.map (·.1))) &&
      decide (b ≠ f.entry)
    else
      ((operands (f.insn z)).all fun w => match w with
        | .insn y => !inBodyB f y || decide (f.parent y = b) || decide (f.parent y ∈ dm b)
        | _ => true) &&
      (if (f.insn z).op = .load ∨ (f.insn z).op = .store then
        match (f.insn z).vals.head? with
        | some (.insn a) => decide ((f.insn a).op = .alloc)
        | _ => true
      else true))

theorem ssa_of_check {f : Fn} {dm : Nat → List Nat} (h : ssaB f dm = true) (ho : ∀ b, b ∉ f.allBbs → f.body b = []) : Ssa f := by
  unfold ssaB at h
  rw [Bool.and_eq_true] at h
  obtain ⟨hd, h⟩ := h
  rw [List.all_eq_true] at h
  have hb : ∀ b z, z ∈ f.body b → b ∈ f.allBbs := fun b z hz => Classical.byContradiction fun hn => by rw [ho b hn] at hz; cases hz
  have h' : ∀ b z, z ∈ f.body b → _ := fun b z hz => List.all_eq_true.1 (h b (hb b z hz)) z hz
  refine ⟨?_, ?_, ?_, ?_, ?_⟩
  · intro b z hz hp y hy hr
    have := h' b z hz
    rw [if_neg hp, Bool.and_eq_true, List.all_eq_true] at this
    have := this.1 (.insn y) (by rw [refs_eq, List.count_pos_iff] at hr; exact hr)
    simp only [inBodyB_iff.2 hy, Bool.not_true, Bool.false_or, Bool.or_eq_true, decide_eq_true_eq] at this
    exact dom_of_check hd this
  · intro b z hz hp p y hm hy
    have := h' b z hz
    rw [if_pos hp, Bool.and_eq_true, Bool.and_eq_true, List.all_eq_true] at this
    have := this.1.1 _ hm
    simp only [inBodyB_iff.2 hy, Bool.not_true, Bool.false_or, Bool.or_eq_true, decide_eq_true_eq] at this
    exact dom_of_check hd this
  · intro b z hz hp p k hw he
    have := h' b z hz
    rw [if_pos hp, Bool.and_eq_true, Bool.and_eq_true] at this
    have := List.all_eq_true.1 this.1.2 p (walk_dom hd hw p k rfl).1
    simp only [he.target, decide_true, Bool.not_true, Bool.false_or, decide_eq_true_eq, List.mem_map] at this
    obtain ⟨⟨q, v⟩, h1, h2⟩ := this
    exact ⟨v, by dsimp only at h2; rw [← h2]; exact h1⟩
  · intro z hz hp
    have := h' f.entry z hz
    rw [if_pos hp, Bool.and_eq_true] at this
    exact absurd rfl (of_decide_eq_true this.2)
  · intro b z hz hl a hh
    have := h' b z hz
    have hp : (f.insn z).op ≠ .phi := by intro e; rw [e] at hl; rcases hl with h | h <;> cases h
    rw [if_neg hp, Bool.and_eq_true] at this
    have := this.2
    rw [if_pos hl, hh] at this
    simpa using this

end Verif.IR
