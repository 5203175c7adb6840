import Verif.Msan.Mem
import Verif.IR.Erase
import Verif.Edit.Users
import Verif.Loc.Run
import Verif.Cg.Grow
/-!
# Executions of a function with shadow memory
-/
namespace Verif.Msan
open Verif Verif.IR Verif.Edit
open Verif.Bpf (Mem)

variable {W : World} {f g : Fn} {R : List Nat} {arr : Nat} {ini : List Nat} {after : Nat → List Nat} {p : BitVec 64} {σ : St}

/-- The states after `n` steps of the original. -/
structure Rel (W : World) (f : Fn) (σ : St) (p : BitVec 64) (n : Nat) (τ τ' : St) : Prop where
  env : ∀ y, Live f y → τ'.env y = τ.env y
  var : ∀ y, Live f y → τ'.var y = τ.var y
  marks : Marks W f σ p n τ τ'

theorem Rel.agree {n : Nat} {τ τ' : St} (h : Rel W f σ p n τ τ') : Agree (Live f) τ { τ' with mem := τ.mem } :=
  ⟨h.env, h.var, rfl, h.marks.trace⟩

theorem Rel.eval {n : Nat} {τ τ' : St} (h : Rel W f σ p n τ τ') {v : Val} (hv : VIn (Live f) v) : eval τ' v = eval τ v := by
  rw [← eval_agree h.agree hv]
  cases v <;> rfl

theorem Rel.evalAll {n : Nat} {τ τ' : St} (h : Rel W f σ p n τ τ') : ∀ {l : List Val}, (∀ v ∈ l, VIn (Live f) v) → evalAll τ' l = evalAll τ l
  | [], _ => rfl
  | v :: vs, hl => by
    rw [IR.evalAll, IR.evalAll, h.eval (hl v (by simp)), Rel.evalAll h (fun w hw => hl w (List.mem_cons_of_mem _ hw))]

theorem ins_in (ht : Tidy f) {x : Nat} (hx : Live f x) : InsIn (Live f) (f.insn x) :=
  ⟨fun v hv y e => ht.closed x y hx (refs_pos.2 (by unfold operands; subst e; simp [hv])),
   fun hr y e => ht.closed x y hx (refs_pos.2 (by unfold operands; rcases hr with hr | hr <;> simp [hr, raw, e]))⟩

/-- Written so far, and in one more step. -/
theorem written_succ {n b x : Nat} {r : List Nat} {τ : St} (hg : runFn W f n σ = .running b (x :: r) τ) (a : BitVec 64) :
    Written W f σ (n + 1) a ↔ Written W f σ n a ∨ (Tracked f x ∧ (f.insn x).op = .storeraw ∧ Hits f τ x a) := by
  constructor
  · rintro ⟨k, x', τ', hk, hgt, h1, h2, h3⟩
    by_cases e : k = n
    · subst e
      obtain ⟨b', r', h4⟩ := hgt
      rw [hg] at h4
      cases h4
      exact .inr ⟨h1, h2, h3⟩
    · exact .inl ⟨k, x', τ', by omega, hgt, h1, h2, h3⟩
  · rintro (⟨k, x', τ', hk, h⟩ | ⟨h1, h2, h3⟩)
    · exact ⟨k, x', τ', by omega, h⟩
    · exact ⟨n, x, τ, by omega, ⟨b, r, hg⟩, h1, h2, h3⟩

/-- Nothing is written in a step that is not a tracked store. -/
theorem written_same {n : Nat} (h : ∀ b x r τ, runFn W f n σ = .running b (x :: r) τ → ¬ (Tracked f x ∧ (f.insn x).op = .storeraw)) (a : BitVec 64) :
    Written W f σ (n + 1) a ↔ Written W f σ n a := by
  constructor
  · rintro ⟨k, x', τ', hk, hgt, h1, h2, h3⟩
    by_cases e : k = n
    · subst e
      obtain ⟨b', r', h4⟩ := hgt
      exact absurd ⟨h1, h2⟩ (h b' x' r' τ' h4)
    · exact ⟨k, x', τ', by omega, hgt, h1, h2, h3⟩
  · rintro ⟨k, x', τ', hk, h⟩
    exact ⟨k, x', τ', by omega, h⟩

theorem Marks.next {n : Nat} {τ τ' : St} (h : Marks W f σ p n τ τ') (hs : ∀ a, Written W f σ (n + 1) a ↔ Written W f σ n a) : Marks W f σ p (n + 1) τ τ' :=
  ⟨h.trace, h.mem, fun a ha hw => h.written a ha ((hs a).1 hw), fun a ha hw => h.virgin a ha (fun h' => hw ((hs a).2 h'))⟩

/-- Memory and calls change outside of the shadow only. -/
theorem Marks.same {n : Nat} {τ τ' τ1 τ1' : St} (h : Marks W f σ p n τ τ') (hs : ∀ a, Written W f σ (n + 1) a ↔ Written W f σ n a)
    (ht : τ1'.trace = τ1.trace) (hm : ∀ a, ¬ Shadow p a → τ1'.mem a = τ1.mem a) (hk : ∀ a, Shadow p a → τ1'.mem a = τ'.mem a) : Marks W f σ p (n + 1) τ1 τ1' :=
  ⟨ht, hm, fun a ha hw => by rw [hk _ (shadow_up ha)]; exact h.written a ha ((hs a).1 hw),
   fun a ha hw => by rw [hk _ (shadow_up ha)]; exact h.virgin a ha (fun h' => hw ((hs a).2 h'))⟩

/-- The original instruction, in the sanitized function, when it is not a tracked store. -/
theorem exec_same (ht : Tidy f) (hbl : Blind W p) {x : Nat} (hx : Live f x) {n : Nat} {τ τ1 τ' : St} (hrel : Rel W f σ p n τ τ')
    (hs : ∀ a, Written W f σ (n + 1) a ↔ Written W f σ n a)
    (hh : (f.insn x).op = .loadraw ∨ (f.insn x).op = .storeraw → ∀ a, Hits f τ x a → ¬ Shadow p a)
    (he : exec W x (f.insn x) τ = some τ1) : ∃ τ1', exec W x (f.insn x) τ' = some τ1' ∧ Rel W f σ p (n + 1) τ1 τ1' := by
  have hin := ins_in ht hx
  have hset : ∀ v (y : Nat), Live f y → (τ'.set x v).env y = (τ.set x v).env y := by
    intro v y hy
    show (if y = x then v else τ'.env y) = (if y = x then v else τ.env y)
    rw [hrel.env y hy]
  by_cases e1 : (f.insn x).op = .loadraw
  · have hadr := hrel.eval (hin.addr (.inl e1))
    simp only [exec, e1, Option.bind_eq_bind, Option.bind_eq_some_iff] at he
    obtain ⟨a, ha, k, hk, he⟩ := he
    cases he
    have hl : Bpf.load k τ'.mem (a + (f.insn x).addrOff.signExtend 64) = Bpf.load k τ.mem (a + (f.insn x).addrOff.signExtend 64) :=
      load_congr k (fun i hi => hrel.marks.mem _ (hh (.inl e1) _ ⟨a, k, i, ha, hk, hi, rfl⟩))
    refine ⟨τ'.set x (Bpf.load k τ'.mem (a + (f.insn x).addrOff.signExtend 64)), by simp only [exec, e1, hadr, ha, hk]; rfl, ?_⟩
    rw [hl]
    exact ⟨hset _, hrel.var, hrel.marks.same hs hrel.marks.trace hrel.marks.mem (fun _ _ => rfl)⟩
  · by_cases e2 : (f.insn x).op = .storeraw
    · have hadr := hrel.eval (hin.addr (.inr e2))
      simp only [exec, e2] at he
      split at he
      · rename_i v hv
        simp only [Option.bind_eq_bind, Option.bind_eq_some_iff] at he
        obtain ⟨a, ha, k, hk, y, hy, he⟩ := he
        cases he
        have hval := hrel.eval (hin.vals v (by rw [hv]; simp))
        refine ⟨{ τ' with mem := Bpf.store k τ'.mem (a + (f.insn x).addrOff.signExtend 64) y }, by
          simp only [exec, e2, hv, hadr, ha, hk, hval, hy]; rfl, hrel.env, hrel.var, hrel.marks.same hs hrel.marks.trace ?_ ?_⟩
        · intro b hb
          exact store_congr_mem k (hrel.marks.mem b hb)
        · intro b hb
          refine store_out k (fun i hi e => ?_)
          exact hh (.inr e2) b ⟨a, k, i, ha, hk, hi, e⟩ hb
      · cases he
    · by_cases e3 : (f.insn x).op = .call
      · simp only [exec, e3, Option.bind_eq_bind, Option.bind_eq_some_iff] at he
        obtain ⟨as, has, he⟩ := he
        cases he
        have hargs := hrel.evalAll hin.vals
        obtain ⟨c1, c2, c3⟩ := hbl τ.trace (f.insn x).aux as τ.mem τ'.mem hrel.marks.mem
        refine ⟨{ (τ'.set x (W.bpf.call τ.trace (f.insn x).aux as τ'.mem).ret) with
            mem := (W.bpf.call τ.trace (f.insn x).aux as τ'.mem).mem, trace := τ.trace ++ [⟨(f.insn x).aux, as⟩] },
          by simp only [exec, e3, hargs, has, hrel.marks.trace]; rfl, ?_, hrel.var, hrel.marks.same hs ?_ ?_ ?_⟩
        · intro y hy
          rw [c1]
          exact hset _ y hy
        · rfl
        · exact c2
        · exact c3
      · have ha := exec_agree hrel.agree W x hin
        obtain ⟨m1, m2⟩ := exec_mem (W := W) (x := x) e1 e2 e3 τ' τ.mem
        rw [he, m1] at ha
        generalize hq : exec W x (f.insn x) τ' = q at ha
        cases q with
        | none => cases ha
        | some τ1' =>
          rw [Option.map_some] at ha
          generalize hz : ({ τ1' with mem := τ.mem } : St) = z at ha
          cases ha with
          | some _ _ ha =>
            subst hz
            have hm1 : τ1.mem = τ.mem := (exec_mem (W := W) (x := x) e1 e2 e3 τ τ.mem).2 τ1 he
            have hm2 : τ1'.mem = τ'.mem := (exec_mem (W := W) (x := x) e1 e2 e3 τ' τ'.mem).2 τ1' hq
            exact ⟨τ1', rfl, ha.env, ha.var, hrel.marks.same hs ha.trace (by rw [hm1, hm2]; exact hrel.marks.mem) (by rw [hm2]; exact fun _ _ => rfl)⟩

theorem add_right_cancel_256 {a b : BitVec 64} (h : a + 256 = b + 256) : a = b := by
  have := congrArg (fun c => c - 256) h
  simpa [BitVec.add_sub_cancel] using this

/-- A tracked store and the store of zeros behind it. -/
theorem exec_store (ht : Tidy f) {x : Nat} (hx : Live f x) (hop : (f.insn x).op = .storeraw) (htr : Tracked f x) (hoff : (f.insn x).addrOff.toInt + 256 < 2 ^ 15)
    {n b : Nat} {r : List Nat} {τ τ1 τ' : St} (hg : runFn W f n σ = .running b (x :: r) τ) (hrel : Rel W f σ p n τ τ')
    (hh : ∀ a, Hits f τ x a → Below p a) (he : exec W x (f.insn x) τ = some τ1) (z : Nat) :
    ∃ τ2 τ1', exec W x (f.insn x) τ' = some τ2 ∧ exec W z (clears (f.insn x)) τ2 = some τ1' ∧ Rel W f σ p (n + 1) τ1 τ1' := by
  have hin := ins_in ht hx
  have hadr := hrel.eval (hin.addr (.inr hop))
  simp only [exec, hop] at he
  split at he
  · rename_i v hv
    simp only [Option.bind_eq_bind, Option.bind_eq_some_iff] at he
    obtain ⟨a, ha, k, hk, y, hy, he⟩ := he
    cases he
    have hval := hrel.eval (hin.vals v (by rw [hv]; simp))
    have hk8 := bytes_le hk
    generalize hA : a + (f.insn x).addrOff.signExtend 64 = A
    have hA2 : a + ((f.insn x).addrOff + 256).signExtend 64 = A + 256 := by
      rw [off_add hoff, ← BitVec.add_assoc, hA]
    have hhit : ∀ c, Hits f τ x c ↔ ∃ i, i < k ∧ c = A + BitVec.ofNat 64 i := by
      intro c
      constructor
      · rintro ⟨a', k', i, h1, h2, h3, h4⟩
        rw [ha] at h1; cases h1
        rw [hk] at h2; cases h2
        exact ⟨i, h3, by rw [h4, hA]⟩
      · rintro ⟨i, h1, h2⟩
        exact ⟨a, k, i, ha, hk, h1, by rw [h2, hA]⟩
    have hsw : ∀ i, A + 256 + BitVec.ofNat 64 i = A + BitVec.ofNat 64 i + 256 := fun i => by
      rw [BitVec.add_assoc, BitVec.add_comm 256, ← BitVec.add_assoc]
    refine ⟨{ τ' with mem := Bpf.store k τ'.mem A y }, { τ' with mem := Bpf.store k (Bpf.store k τ'.mem A y) (A + 256) 0 }, ?_, ?_, hrel.env, hrel.var,
      hrel.marks.trace, ?_, ?_, ?_⟩
    · simp only [exec, hop, hv, hadr, ha, hk, hval, hy, ← hA]; rfl
    · have e0 : IR.eval ({ τ' with mem := Bpf.store k τ'.mem A y } : St) (f.insn x).addr = some a := by
        rw [← ha, ← hadr]
        cases (f.insn x).addr <;> rfl
      simp only [exec, clears, e0, hk]
      show some _ = some _
      rw [hA2]
    · intro c hc
      dsimp only
      rw [store_out k (fun i hi e => hc ?_)]
      · exact store_congr_mem k (hrel.marks.mem c hc)
      · rw [e, hsw]
        exact shadow_up (hh _ ((hhit _).2 ⟨i, hi, rfl⟩))
    · intro c hc hw
      dsimp only
      by_cases hhc : Hits f τ x c
      · obtain ⟨i, hi, e⟩ := (hhit c).1 hhc
        rw [e, ← hsw, store_in k (by omega) hi]
        simp
      · rw [store_out k (fun i hi e => hhc ((hhit c).2 ⟨i, hi, add_right_cancel_256 (e.trans (hsw i))⟩)),
          store_out k (fun i hi e => below_not (hh _ ((hhit _).2 ⟨i, hi, rfl⟩)) (e ▸ shadow_up hc))]
        refine hrel.marks.written c hc ?_
        rcases (written_succ hg c).1 hw with h | h
        · exact h
        · exact absurd h.2.2 hhc
    · intro c hc hw
      dsimp only
      rw [written_succ hg c] at hw
      have hhc : ¬ Hits f τ x c := fun h => hw (.inr ⟨htr, hop, h⟩)
      rw [store_out k (fun i hi e => hhc ((hhit c).2 ⟨i, hi, add_right_cancel_256 (e.trans (hsw i))⟩)),
        store_out k (fun i hi e => below_not (hh _ ((hhit _).2 ⟨i, hi, rfl⟩)) (e ▸ shadow_up hc))]
      exact hrel.marks.virgin c hc (fun h => hw (.inl h))
  · cases he

/-- The load of the shadow changes nothing that is looked at. -/
theorem exec_load {x : Nat} (hop : (f.insn x).op = .loadraw) {m : Nat} {τ τ1 τ2 : St} (he : exec W x (f.insn x) τ = some τ1) (hrel : Rel W f σ p m τ1 τ2)
    {z : Nat} (hz : ¬ Live f z) : ∃ τ3, exec W z (reads (f.insn x)) τ2 = some τ3 ∧ Rel W f σ p m τ1 τ3 := by
  simp only [exec, hop, Option.bind_eq_bind, Option.bind_eq_some_iff] at he
  obtain ⟨a, ha, k, hk, he⟩ := he
  obtain ⟨a', e0⟩ : ∃ a', IR.eval τ2 (f.insn x).addr = some a' := by
    cases e : (f.insn x).addr with
    | const => exact ⟨_, rfl⟩
    | undef => rw [e] at ha; cases ha
    | insn y => exact ⟨_, rfl⟩
  refine ⟨τ2.set z (Bpf.load k τ2.mem (a' + ((f.insn x).addrOff + 256).signExtend 64)), by simp only [exec, reads, e0, hk]; rfl, ?_, hrel.var, ?_⟩
  · intro y hy
    show (if y = z then _ else τ2.env y) = _
    rw [if_neg (fun (e : y = z) => hz (e ▸ hy))]
    exact hrel.env y hy
  · exact ⟨hrel.marks.trace, hrel.marks.mem, hrel.marks.written, hrel.marks.virgin⟩

/-! ## Runs -/

/-- A list of instructions with what is behind them. -/
def weave (after : Nat → List Nat) (l : List Nat) : List Nat := l.flatMap (fun x => x :: after x)

theorem weave_cons (x : Nat) (l : List Nat) : weave after (x :: l) = x :: (after x ++ weave after l) := by
  unfold weave; rw [List.flatMap_cons]; rfl

theorem run_one {b x : Nat} {r : List Nat} {τ τ1 : St} (hp : plain (g.insn x).op = true) (he : exec W x (g.insn x) τ = some τ1) (m : Nat) :
    run W g (m + 1) b (x :: r) τ = run W g m b r τ1 := by
  rw [run, step_plain hp, he]

/-- What the pass needs of the function: nothing jumps to the entry and it has no phis, `R` are the blocks that are reached. -/
structure Fit (f : Fn) (R : List Nat) : Prop where
  tidy : Tidy f
  flow : Loc.Flow f R
  blocks : ∀ b ∈ R, b ∈ f.allBbs
  entry : phisOf f f.entry = []
  loop : ∀ b ∈ R, f.entry ∉ f.succs b
  offs : ∀ b ∈ R, ∀ x ∈ f.body b, Tracked f x → (f.insn x).addrOff.toInt + 256 < 2 ^ 15

theorem fresh_live (ht : Tidy f) {z : Nat} (h : f.next ≤ z) : ¬ Live f z := fun hl => by
  have := ht.lt z hl; omega

/-- One instruction of the original and what is behind it. -/
theorem one (hf : Fit f R) (S : Sanitized f R g arr ini after) (hbl : Blind W p) (hsane : Sane W f σ p) {n b x : Nat} {r tail : List Nat} (hb : b ∈ R)
    (hx : x ∈ f.body b) {τ τ1 τ' : St} (hg : runFn W f n σ = .running b (x :: r) τ) (hrel : Rel W f σ p n τ τ') (hp : plain (f.insn x).op = true)
    (he : exec W x (f.insn x) τ = some τ1) :
    ∃ j τ1', 0 < j ∧ (∀ m, run W g (m + j) b (x :: (after x ++ tail)) τ' = run W g m b tail τ1') ∧ Rel W f σ p (n + 1) τ1 τ1' := by
  have hxl : Live f x := .inr (.inr ⟨b, hf.blocks b hb, hx⟩)
  have hgx := S.old x hxl
  have hget : Gets W f σ n x τ := ⟨b, r, hg⟩
  by_cases htr : Tracked f x
  · rcases htr.1 with hop | hop
    · have hs : ∀ a, Written W f σ (n + 1) a ↔ Written W f σ n a := written_same (fun b' x' r' τ'' h => by
        rw [hg] at h; cases h
        rintro ⟨_, e⟩
        rw [hop] at e; cases e)
      obtain ⟨τ2, h1, h2⟩ := exec_same hf.tidy hbl hxl hrel hs (fun _ a ha => below_not (hsane.tracked n x τ hget htr a ha)) he
      obtain ⟨z, hz, hzi⟩ := S.load b hb x hx htr hop
      obtain ⟨τ3, h3, h4⟩ := exec_load hop he h2 (fresh_live hf.tidy (S.fresh.2.2 x z (by rw [hz]; simp)))
      refine ⟨2, τ3, by omega, fun m => ?_, h4⟩
      rw [hz, run_one (by rw [hgx]; exact hp) (by rw [hgx]; exact h1)]
      exact run_one (by rw [hzi]; rfl) (by rw [hzi]; exact h3) m
    · obtain ⟨z, hz, hzi⟩ := S.store b hb x hx htr hop
      obtain ⟨τ2, τ3, h1, h2, h3⟩ := exec_store hf.tidy hxl hop htr (hf.offs b hb x hx htr) hg hrel (hsane.tracked n x τ hget htr) he z
      refine ⟨2, τ3, by omega, fun m => ?_, h3⟩
      rw [hz, run_one (by rw [hgx]; exact hp) (by rw [hgx]; exact h1)]
      exact run_one (by rw [hzi]; rfl) (by rw [hzi]; exact h2) m
  · have hs : ∀ a, Written W f σ (n + 1) a ↔ Written W f σ n a := written_same (fun b' x' r' τ'' h => by
      rw [hg] at h; cases h
      rintro ⟨e, _⟩
      exact htr e)
    obtain ⟨τ2, h1, h2⟩ := exec_same hf.tidy hbl hxl hrel hs (fun hr a ha => hsane.other n x τ hget hr htr a ha) he
    refine ⟨1, τ2, by omega, fun m => ?_, h2⟩
    rw [S.other b (hf.blocks b hb) x hx (fun h => htr h.2), run_one (by rw [hgx]; exact hp) (by rw [hgx]; exact h1)]
    rfl

/-- The phis and the code of a block other than the entry. -/
theorem split_of (hf : Fit f R) (S : Sanitized f R g arr ini after) {b : Nat} (hb : b ∈ R) (he : b ≠ f.entry) :
    phisOf g b = phisOf f b ∧ codeOf g b = weave after (codeOf f b) := by
  have hbb := hf.blocks b hb
  have hbody := S.body b hbb
  rw [if_neg he, List.nil_append] at hbody
  have hold : ∀ x ∈ f.body b, g.insn x = f.insn x := fun x hx => S.old x (.inr (.inr ⟨b, hbb, hx⟩))
  have := Cg.dw_pos (p := fun x => (g.insn x).op == .phi) (l := phisOf f b) (r := weave after (codeOf f b)) (fun x hx => by
      rw [hold x (by rw [← Loc.phisOf_append f b]; exact List.mem_append_left _ hx), Loc.phisOf_phi hx]; rfl) (fun a s e => by
      rcases ec : codeOf f b with _ | ⟨x, c⟩
      · rw [ec] at e; cases e
      · rw [ec, weave_cons] at e
        injection e with e1 _
        subst e1
        rw [hold x (by rw [← Loc.phisOf_append f b, ec]; simp)]
        have := List.head?_dropWhile_not (p := fun x => (f.insn x).op == .phi) (l := f.body b)
        unfold codeOf at ec
        rw [ec] at this
        simpa using this)
  unfold phisOf at this hbody ⊢
  unfold codeOf at this hbody ⊢
  rw [hbody]
  exact this

/-- A block is entered. -/
theorem enters (hf : Fit f R) (S : Sanitized f R g arr ini after) {n b t : Nat} (hb : b ∈ R) (ht : t ∈ f.succs b) {τ τ' : St}
    (hs : ∀ a, Written W f σ (n + 1) a ↔ Written W f σ n a) (hrel : Rel W f σ p n τ τ') {e : Nat → BitVec 64} (he : phiAssign f b τ (phisOf f t) = some e) :
    ∃ τ1', enter g b t τ' = .goto t (weave after (codeOf f t)) τ1' ∧ Rel W f σ p (n + 1) { τ with env := e } τ1' := by
  have htR := hf.flow.succs b hb t ht
  obtain ⟨h1, h2⟩ := split_of hf S htR (fun e => hf.loop b hb (e ▸ ht))
  have hlv : ∀ x ∈ phisOf f t, Live f x := fun x hx => .inr (.inr ⟨t, hf.blocks t htR, by rw [← Loc.phisOf_append f t]; exact List.mem_append_left _ hx⟩)
  obtain ⟨e', h3, h4⟩ := phiAssign_agree (f := f) (g := g) (D := fun _ => false) hrel.agree b (phisOf f t) (fun x hx => ⟨by simp, fun _ =>
    ⟨S.old x (hlv x hx), fun o ho y ey => hf.tidy.closed x y (hlv x hx) (refs_pos.2 (by
      unfold operands
      rw [Loc.phisOf_phi hx]
      simp only [if_true, List.mem_append, List.mem_map]
      exact .inl (.inr ⟨o, ho, ey⟩)))⟩⟩) e he
  have hmem : ∀ l, phiAssign g b { τ' with mem := τ.mem } l = phiAssign g b τ' l := by
    intro l
    induction l with
    | nil => rfl
    | cons x xs ih =>
      rw [phiAssign, phiAssign, ih]
      have : phiVal (g.insn x) b { τ' with mem := τ.mem } = phiVal (g.insn x) b τ' := by
        unfold phiVal
        cases (g.insn x).phi.find? (fun o => o.1 == b) with
        | none => rfl
        | some o =>
          show IR.eval _ o.2 = IR.eval _ o.2
          cases o.2 <;> rfl
      rw [this]
  have hflt : (phisOf f t).filter (fun _ => !false) = phisOf f t := by simp
  rw [hflt, hmem] at h3
  refine ⟨{ τ' with env := e' }, ?_, h4, hrel.var, ?_⟩
  · unfold enter
    rw [h1, h2, h3]
  · exact hrel.marks.same hs hrel.marks.trace hrel.marks.mem (fun _ _ => rfl)

/-! ## The start -/

theorem off_ones : ∀ i, i < 32 → (BitVec.ofNat 16 (8 * i)).signExtend 64 = BitVec.ofNat 64 (8 * i) := by decide
theorem byte_ones : ∀ j, j < 8 → ((BitVec.allOnes 64) >>> (8 * j)).setWidth 8 = (0xFF : BitVec 8) := by decide

theorem shadow_iff {a : BitVec 64} : Shadow p a ↔ ∃ i, i < 32 ∧ ∃ j, j < 8 ∧ a = p + BitVec.ofNat 64 (8 * i) + BitVec.ofNat 64 j := by
  unfold Shadow
  constructor
  · intro h
    refine ⟨(a - p).toNat / 8, by omega, (a - p).toNat % 8, by omega, ?_⟩
    rw [BitVec.add_assoc, ← BitVec.ofNat_add, Nat.div_add_mod, BitVec.ofNat_toNat, BitVec.setWidth_eq, BitVec.add_comm, BitVec.sub_add_cancel]
  · rintro ⟨i, hi, j, hj, rfl⟩
    rw [BitVec.add_assoc, ← BitVec.ofNat_add, BitVec.add_comm, BitVec.add_sub_cancel, BitVec.toNat_ofNat, Nat.mod_eq_of_lt (by omega)]
    omega

/-- The shadow memory is filled. -/
theorem run_fill {b : Nat} {tail : List Nat} : ∀ (l : List Nat) (ns : List Nat), ns.map g.insn = l.map (ones arr) → (∀ i ∈ l, i < 32) → ∀ (τ : St), τ.env arr = p →
    ∃ M : Mem, (∀ m, run W g (m + l.length) b (ns ++ tail) τ = run W g m b tail { τ with mem := M }) ∧
      (∀ a i j, i ∈ l → j < 8 → a = p + BitVec.ofNat 64 (8 * i) + BitVec.ofNat 64 j → M a = 0xFF) ∧ (∀ a, M a = τ.mem a ∨ Shadow p a ∧ M a = 0xFF)
  | [], ns, h, _, τ, _ => by
    have : ns = [] := by simpa using h
    subst this
    exact ⟨τ.mem, fun m => rfl, fun a i j hi => by simp at hi, fun a => .inl rfl⟩
  | i :: l, ns, h, hl, τ, hp => by
    rw [List.map_cons] at h
    obtain ⟨n, ns', rfl, h1, h2⟩ := List.map_eq_cons_iff.1 h
    have hi := hl i List.mem_cons_self
    have hex : exec W n (g.insn n) τ = some { τ with mem := Bpf.store 8 τ.mem (p + BitVec.ofNat 64 (8 * i)) (BitVec.allOnes 64) } := by
      rw [h1, ← off_ones i hi, ← hp]
      rfl
    obtain ⟨M, h3, h4, h5⟩ := run_fill l ns' h2 (fun j hj => hl j (List.mem_cons_of_mem _ hj))
      { τ with mem := Bpf.store 8 τ.mem (p + BitVec.ofNat 64 (8 * i)) (BitVec.allOnes 64) } hp
    have hin : ∀ j, j < 8 → Bpf.store 8 τ.mem (p + BitVec.ofNat 64 (8 * i)) (BitVec.allOnes 64) (p + BitVec.ofNat 64 (8 * i) + BitVec.ofNat 64 j) = 0xFF := by
      intro j hj
      rw [store_in 8 (by omega) hj, byte_ones j hj]
    refine ⟨M, fun m => ?_, ?_, ?_⟩
    · rw [List.length_cons, ← Nat.add_assoc, List.cons_append, run_one (by rw [h1]; rfl) hex, h3]
    · intro a i' j hi' hj e
      rcases List.mem_cons.1 hi' with e' | hi'
      · subst e'
        rcases h5 a with h6 | h6
        · rw [h6, e]; exact hin j hj
        · exact h6.2
      · exact h4 a i' j hi' hj e
    · intro a
      rcases h5 a with h6 | h6
      · by_cases hj : ∃ j, j < 8 ∧ a = p + BitVec.ofNat 64 (8 * i) + BitVec.ofNat 64 j
        · obtain ⟨j, hj, e⟩ := hj
          refine .inr ⟨shadow_iff.2 ⟨i, hi, j, hj, e⟩, ?_⟩
          rw [h6, e]; exact hin j hj
        · left
          rw [h6]
          exact store_out 8 (fun j hj' e => hj ⟨j, hj', e⟩)
      · exact .inr h6

/-- The start of the sanitized function. -/
theorem start (hf : Fit f R) (S : Sanitized f R g arr ini after) (harr : W.arr arr = p) :
    ∃ τ', (∀ m, run W g (m + 33) g.entry (g.body g.entry) σ = run W g m f.entry (weave after (f.body f.entry)) τ') ∧ Rel W f σ p 0 σ τ' := by
  have hbody := S.body f.entry (hf.blocks _ hf.flow.entry)
  rw [if_pos rfl, hf.entry, List.nil_append] at hbody
  have hco : codeOf f f.entry = f.body f.entry := by
    have := Loc.phisOf_append f f.entry
    rw [hf.entry] at this; exact this
  rw [hco] at hbody
  have h1 : exec W arr (g.insn arr) σ = some (σ.set arr p) := by rw [S.array, ← harr]; rfl
  have hini := S.init
  rw [← List.map_reverse] at hini
  obtain ⟨M, h2, h3, h4⟩ := run_fill (W := W) (p := p) (b := f.entry) (tail := weave after (f.body f.entry)) (List.range 32).reverse ini hini
    (fun i hi => by simpa using hi) (σ.set arr p) (by simp [St.set])
  have hnw : ∀ a, ¬ Written W f σ 0 a := by rintro a ⟨k, _, _, hk, _⟩; omega
  refine ⟨{ (σ.set arr p) with mem := M }, fun m => ?_, ?_, fun _ _ => rfl, rfl, ?_, fun a _ hw => absurd hw (hnw a), ?_⟩
  · rw [S.entry, hbody, List.cons_append]
    have := run_one (W := W) (g := g) (b := f.entry) (r := ini ++ weave after (f.body f.entry)) (by rw [S.array]; rfl) h1 (m + 32)
    have h5 := h2 m
    rw [List.length_reverse, List.length_range] at h5
    exact this.trans h5
  · intro y hy
    show (if y = arr then p else σ.env y) = σ.env y
    rw [if_neg]
    intro e
    exact fresh_live hf.tidy S.fresh.1 (e ▸ hy)
  · intro a ha
    rcases h4 a with h5 | h5
    · exact h5
    · exact absurd h5.1 ha
  · intro a ha _
    obtain ⟨i, hi, j, hj, e⟩ := shadow_iff.1 (shadow_up ha)
    exact h3 _ i j (by simpa using hi) hj e

theorem run_stop {W : World} {f : Fn} {v : BitVec 64} : ∀ {n b : Nat} {r : List Nat} {τ τ1 : St}, run W f n b r τ = .done v τ1 → run W f (n + 1) b r τ = .done v τ1
  | 0, _, _, _, _, h => by cases h
  | n + 1, b, r, τ, τ1, h => by
    rw [run] at h ⊢
    cases hs : step W f b r τ with
    | goto b' r' τ' => rw [hs] at h; exact run_stop h
    | done x => rw [hs] at h; exact h
    | thrown => rw [hs] at h; exact h
    | stuck => rw [hs] at h; exact h

theorem run_threw {W : World} {f : Fn} : ∀ {n b : Nat} {r : List Nat} {τ τ1 : St}, run W f n b r τ = .thrown τ1 → run W f (n + 1) b r τ = .thrown τ1
  | 0, _, _, _, _, h => by cases h
  | n + 1, b, r, τ, τ1, h => by
    rw [run] at h ⊢
    cases hs : step W f b r τ with
    | goto b' r' τ' => rw [hs] at h; exact run_threw h
    | done x => rw [hs] at h; exact h
    | thrown => rw [hs] at h; exact h
    | stuck => rw [hs] at h; exact h

theorem run_stuck {W : World} {f : Fn} : ∀ {n b : Nat} {r : List Nat} {τ : St}, run W f n b r τ = .stuck → run W f (n + 1) b r τ = .stuck
  | 0, _, _, _, h => by cases h
  | n + 1, b, r, τ, h => by
    rw [run] at h ⊢
    cases hs : step W f b r τ with
    | goto b' r' τ' => rw [hs] at h; exact run_stuck h
    | done x => rw [hs] at h; exact h
    | thrown => rw [hs] at h; exact h
    | stuck => rfl

theorem run_add' {W : World} {f : Fn} : ∀ {m : Nat} {c : Nat} {s : List Nat} {τ : St} {b : Nat} {r : List Nat} {τ1 : St}, run W f m c s τ = .running b r τ1 → ∀ j,
    run W f (m + j) c s τ = run W f j b r τ1
  | 0, _, _, _, _, _, _, h, j => by cases h; rw [Nat.zero_add]
  | m + 1, c, s, τ, b, r, τ1, h, j => by
    rw [Nat.add_right_comm, run]
    rw [run] at h
    cases hs : step W f c s τ with
    | goto b' r' τ' => rw [hs] at h; exact run_add' h j
    | done x => rw [hs] at h; cases h
    | thrown => rw [hs] at h; cases h
    | stuck => rw [hs] at h; cases h

theorem way_step {W : World} {f : Fn} {c d : Nat} {τ : St} {r : List Nat} (h : Way f c τ r d) : step W f c r τ = enter f c d τ := by
  cases h with
  | fall ht => simp only [step, ht]
  | ja hop => simp only [step]; rw [if_pos hop]
  | no hop ht =>
    have : (f.insn _).op ≠ .ja := fun e => by rw [e] at hop; cases hop
    simp only [step]; rw [if_neg this, if_pos hop, ht]
  | yes hop ht =>
    have : (f.insn _).op ≠ .ja := fun e => by rw [e] at hop; cases hop
    simp only [step]; rw [if_neg this, if_pos hop, ht]

/-- The position of a run, with the same position in the sanitized function. -/
structure Pos (W : World) (f g : Fn) (R : List Nat) (after : Nat → List Nat) (σ : St) (p : BitVec 64) (n : Nat) (b : Nat) (r : List Nat) (τ : St) : Prop where
  block : b ∈ R
  rest : ∀ x ∈ r, x ∈ f.body b
  same : ∃ m τ', n ≤ m ∧ runFn W g m σ = .running b (weave after r) τ' ∧ Rel W f σ p n τ τ'

theorem step_ret_inv {b : Nat} {r : List Nat} {τ : St} {v : BitVec 64} (h : step W f b r τ = .done v) :
    ∃ x r', r = x :: r' ∧ (f.insn x).op = .ret ∧ ∃ w, (f.insn x).vals = [w] ∧ IR.eval τ w = some v := by
  have he : ∀ t, enter f b t τ ≠ .done v := by
    intro t; unfold enter; split <;> simp
  cases r with
  | nil =>
    simp only [step] at h
    split at h
    · exact absurd h (he _)
    · cases h
  | cons x r =>
    simp only [step] at h
    split at h
    · exact absurd h (he _)
    · split at h
      · split at h
        · exact absurd h (he _)
        · exact absurd h (he _)
        · cases h
      · split at h
        · rename_i hr
          split at h
          · rename_i w hw
            split at h
            · rename_i y hy
              cases h
              exact ⟨x, r, rfl, hr, w, hw, hy⟩
            · cases h
          · cases h
        · split at h
          · cases h
          · split at h
            · cases h
            · split at h <;> cases h

theorem step_throw_inv {b : Nat} {r : List Nat} {τ : St} (h : step W f b r τ = .thrown) : ∃ x r', r = x :: r' ∧ (f.insn x).op = .throw := by
  have he : ∀ t, enter f b t τ ≠ .thrown := by
    intro t; unfold enter; split <;> simp
  cases r with
  | nil =>
    simp only [step] at h
    split at h
    · exact absurd h (he _)
    · cases h
  | cons x r =>
    simp only [step] at h
    split at h
    · exact absurd h (he _)
    · split at h
      · split at h
        · exact absurd h (he _)
        · exact absurd h (he _)
        · cases h
      · split at h
        · split at h
          · split at h <;> cases h
          · cases h
        · split at h
          · rename_i ht
            exact ⟨x, r, rfl, ht⟩
          · split at h
            · cases h
            · split at h <;> cases h

/-- One more step from a position. -/
theorem Pos.next (hf : Fit f R) (S : Sanitized f R g arr ini after) (hbl : Blind W p) (hsane : Sane W f σ p) {n b : Nat} {r : List Nat} {τ : St}
    (hg : runFn W f n σ = .running b r τ) (P : Pos W f g R after σ p n b r τ) {c : Nat} {s : List Nat} {τ1 : St} (hs : step W f b r τ = .goto c s τ1) :
    Pos W f g R after σ p (n + 1) c s τ1 := by
  obtain ⟨m, τ', hm, hrun, hrel⟩ := P.same
  rcases step_cases hs with ⟨x, hr, hc, hp, he⟩ | ⟨hw, hs1, e, he, hτ⟩
  · subst hr hc
    obtain ⟨j, τ1', hj, h1, h2⟩ := one hf S hbl hsane P.block (P.rest x List.mem_cons_self) hg hrel hp he (tail := weave after s)
    refine ⟨P.block, fun y hy => P.rest y (List.mem_cons_of_mem _ hy), m + j, τ1', by omega, ?_, h2⟩
    have := run_add' hrun j
    rw [weave_cons] at this
    have h3 := h1 0
    rw [Nat.zero_add] at h3
    exact this.trans h3
  · have hwr : c ∈ f.succs b ∧ Way g b τ' (weave after r) c ∧ (∀ x r', r = x :: r' → (f.insn x).op ≠ .storeraw) := by
      have hgx : ∀ x ∈ r, g.insn x = f.insn x := fun x hx => S.old x (.inr (.inr ⟨b, hf.blocks b P.block, P.rest x hx⟩))
      have htk : ∀ x ∈ r, taken (f.insn x) τ' = taken (f.insn x) τ := by
        intro x hx
        rw [← taken_agree hrel.agree (ins_in hf.tidy (.inr (.inr ⟨b, hf.blocks b P.block, P.rest x hx⟩)))]
        unfold taken
        have hev : ∀ v, IR.eval ({ τ' with mem := τ.mem } : St) v = IR.eval τ' v := fun v => by cases v <;> rfl
        simp only [hev]
      cases hw with
      | fall ht =>
        refine ⟨by rw [ht]; simp, .fall (by rw [S.succs]; exact ht), by simp⟩
      | ja hop =>
        rename_i x r'
        refine ⟨hf.flow.ja b P.block x (P.rest x (by simp)) hop, ?_, fun y s' e => by cases e; rw [hop]; simp⟩
        have := Way.ja (f := g) (c := b) (σ := τ') (x := x) (r := after x ++ weave after r') (by rw [hgx x (by simp)]; exact hop)
        rw [hgx x (by simp), ← weave_cons] at this
        exact this
      | no hop ht =>
        rename_i x r'
        refine ⟨(hf.flow.cond b P.block x (P.rest x (by simp)) hop).1, ?_, fun y s' e => by cases e; intro e; rw [e] at hop; cases hop⟩
        have := Way.no (f := g) (c := b) (σ := τ') (x := x) (r := after x ++ weave after r') (by rw [hgx x (by simp)]; exact hop)
          (by rw [hgx x (by simp), htk x (by simp)]; exact ht)
        rw [hgx x (by simp), ← weave_cons] at this
        exact this
      | yes hop ht =>
        rename_i x r'
        refine ⟨(hf.flow.cond b P.block x (P.rest x (by simp)) hop).2, ?_, fun y s' e => by cases e; intro e; rw [e] at hop; cases hop⟩
        have := Way.yes (f := g) (c := b) (σ := τ') (x := x) (r := after x ++ weave after r') (by rw [hgx x (by simp)]; exact hop)
          (by rw [hgx x (by simp), htk x (by simp)]; exact ht)
        rw [hgx x (by simp), ← weave_cons] at this
        exact this
    obtain ⟨hc, hway, hns⟩ := hwr
    have hwn : ∀ a, Written W f σ (n + 1) a ↔ Written W f σ n a := written_same (fun b' x' r' τ'' h => by
      rw [hg] at h; cases h
      rintro ⟨_, e⟩
      exact hns x' r' rfl e)
    obtain ⟨τ1', h1, h2⟩ := enters hf S P.block hc hwn hrel he
    subst hs1 hτ
    refine ⟨hf.flow.succs b P.block c hc, fun y hy => by rw [← Loc.phisOf_append f c]; exact List.mem_append_right _ hy, m + 1, τ1', by omega, ?_, h2⟩
    have := run_add' hrun 1
    refine this.trans ?_
    rw [run, way_step hway, h1]
    rfl

theorem pos_zero (hf : Fit f R) (S : Sanitized f R g arr ini after) (harr : W.arr arr = p) : Pos W f g R after σ p 0 f.entry (f.body f.entry) σ := by
  obtain ⟨τ', h1, h2⟩ := start (σ := σ) hf S harr
  refine ⟨hf.flow.entry, fun x hx => hx, 33, τ', by omega, ?_, h2⟩
  have := h1 0
  rw [Nat.zero_add] at this
  exact this

/-- What a run of `n` steps looks like on both sides. -/
def Both (W : World) (f g : Fn) (R : List Nat) (after : Nat → List Nat) (σ : St) (p : BitVec 64) (n : Nat) : Res → Prop
  | .running b r τ => Pos W f g R after σ p n b r τ
  | .done x τ => ∃ m τ', n ≤ m ∧ runFn W g m σ = .done x τ' ∧ Marks W f σ p n τ τ'
  | .thrown τ => ∃ m τ', n ≤ m ∧ runFn W g m σ = .thrown τ' ∧ Marks W f σ p n τ τ'
  | .stuck => True

theorem both (hf : Fit f R) (S : Sanitized f R g arr ini after) (hbl : Blind W p) (hsane : Sane W f σ p) (harr : W.arr arr = p) :
    ∀ n, Both W f g R after σ p n (runFn W f n σ)
  | 0 => pos_zero hf S harr
  | n + 1 => by
    have ih := both hf S hbl hsane harr n
    cases hn : runFn W f n σ with
    | running b r τ =>
      rw [hn] at ih
      have P : Pos W f g R after σ p n b r τ := ih
      have hr : runFn W f (n + 1) σ = run W f 1 b r τ := run_add' hn 1
      rw [hr, run]
      cases hs : step W f b r τ with
      | goto c s τ1 => exact P.next hf S hbl hsane hn hs
      | done v =>
        obtain ⟨x, r', rfl, hop, w, hw, hev⟩ := step_ret_inv hs
        obtain ⟨m, τ', hm, hrun, hrel⟩ := P.same
        have hx : Live f x := .inr (.inr ⟨b, hf.blocks b P.block, P.rest x List.mem_cons_self⟩)
        have hgx := S.old x hx
        refine ⟨m + 1, τ', by omega, ?_, hrel.marks.next (written_same (fun b' x' r'' τ'' h => ?_))⟩
        · refine (run_add' hrun 1).trans ?_
          have hev' : IR.eval τ' w = some v := by
            rw [← hev]
            have := eval_agree hrel.agree ((ins_in hf.tidy hx).vals w (by rw [hw]; simp))
            rw [← this]
            cases w <;> rfl
          have hst : step W g b (weave after (x :: r')) τ' = .done v := by
            rw [weave_cons]
            simp only [List.cons_append, step, hgx, hop, hw, hev']
            rfl
          rw [run, hst]
        · rw [hn] at h; cases h
          rintro ⟨_, e⟩
          rw [hop] at e; cases e
      | thrown =>
        obtain ⟨x, r', rfl, hop⟩ := step_throw_inv hs
        obtain ⟨m, τ', hm, hrun, hrel⟩ := P.same
        have hgx := S.old x (.inr (.inr ⟨b, hf.blocks b P.block, P.rest x List.mem_cons_self⟩))
        refine ⟨m + 1, τ', by omega, ?_, hrel.marks.next (written_same (fun b' x' r'' τ'' h => ?_))⟩
        · refine (run_add' hrun 1).trans ?_
          have hst : step W g b (weave after (x :: r')) τ' = .thrown := by
            rw [weave_cons]
            simp only [List.cons_append, step, hgx, hop]
            rfl
          rw [run, hst]
        · rw [hn] at h; cases h
          rintro ⟨_, e⟩
          rw [hop] at e; cases e
      | stuck => trivial
    | done v τ =>
      rw [hn] at ih
      obtain ⟨m, τ', hm, hrun, hmk⟩ := ih
      rw [show runFn W f (n + 1) σ = .done v τ from run_stop hn]
      exact ⟨m + 1, τ', by omega, run_stop hrun, hmk.next (written_same (fun b' x' r'' τ'' h => by rw [hn] at h; cases h))⟩
    | thrown τ =>
      rw [hn] at ih
      obtain ⟨m, τ', hm, hrun, hmk⟩ := ih
      rw [show runFn W f (n + 1) σ = .thrown τ from run_threw hn]
      exact ⟨m + 1, τ', by omega, run_threw hrun, hmk.next (written_same (fun b' x' r'' τ'' h => by rw [hn] at h; cases h))⟩
    | stuck =>
      rw [show runFn W f (n + 1) σ = .stuck from run_stuck hn]
      trivial

theorem follows (hf : Fit f R) (S : Sanitized f R g arr ini after) (hbl : Blind W p) (hsane : Sane W f σ p) (harr : W.arr arr = p) (n : Nat) :
    runFn W f n σ = .stuck ∨ ∃ m, n ≤ m ∧ Follows W f σ p n (runFn W f n σ) (runFn W g m σ) := by
  have := both hf S hbl hsane harr n
  cases hn : runFn W f n σ with
  | running b r τ =>
    rw [hn] at this
    obtain ⟨m, τ', hm, hr, hrel⟩ := Pos.same this
    exact .inr ⟨m, hm, by rw [hr]; exact .running _ _ _ _ _ hrel.marks⟩
  | done v τ =>
    rw [hn] at this
    obtain ⟨m, τ', hm, hr, hmk⟩ := this
    exact .inr ⟨m, hm, by rw [hr]; exact .done _ _ _ hmk⟩
  | thrown τ =>
    rw [hn] at this
    obtain ⟨m, τ', hm, hr, hmk⟩ := this
    exact .inr ⟨m, hm, by rw [hr]; exact .thrown _ _ hmk⟩
  | stuck => exact .inl rfl

end Verif.Msan
