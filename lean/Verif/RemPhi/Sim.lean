import Verif.Loc.Recolor
import Verif.Spec.PhiOut
/-!
# Executions of a function with copies instead of phis
-/
namespace Verif.RemPhi
open Verif Verif.IR Verif.Edit Verif.Loc

/-- Lists related element by element. -/
inductive All2 {α β : Type} (P : α → β → Prop) : List α → List β → Prop
  | nil : All2 P [] []
  | cons {a b as bs} : P a b → All2 P as bs → All2 P (a :: as) (b :: bs)

/-- The value of an operand. -/
def valOf (l : Nat → Nat) (e : Nat → BitVec 64) : Val → BitVec 64
  | .const _ c _ _ => c
  | .insn y => e (l y)
  | .undef => 0

/-- Copies made one after the other. -/
def seqc (l : Nat → Nat) : List (Nat × Val) → (Nat → BitVec 64) → Nat → BitVec 64
  | [], e => e
  | o :: C, e => seqc l C (fun q => if q = l o.1 then valOf l e o.2 else e q)

theorem seqc_old {l : Nat → Nat} : ∀ {C : List (Nat × Val)} {e : Nat → BitVec 64} {q : Nat}, (∀ o ∈ C, l o.1 ≠ q) → seqc l C e q = e q
  | [], _, _, _ => rfl
  | o :: C, e, q, h => by
    unfold seqc
    rw [seqc_old (fun p hp => h p (List.mem_cons_of_mem _ hp))]
    exact if_neg (fun e => h o List.mem_cons_self e.symm)

theorem valOf_congr {l : Nat → Nat} {e e' : Nat → BitVec 64} {v : Val} (h : ∀ q ∈ place l v, e' q = e q) : valOf l e' v = valOf l e v := by
  cases v with
  | insn y => exact h (l y) (by simp [place])
  | const => rfl
  | undef => rfl

theorem seqc_new {l : Nat → Nat} : ∀ {A : List (Nat × Val)} {x : Nat} {v : Val} {B : List (Nat × Val)} {e : Nat → BitVec 64},
    (∀ o ∈ B, l o.1 ≠ l x) → (∀ o ∈ A, l o.1 ∉ place l v) → seqc l (A ++ (x, v) :: B) e (l x) = valOf l e v
  | [], x, v, B, e, hB, _ => by
    rw [List.nil_append, seqc, seqc_old hB]
    simp
  | o :: A, x, v, B, e, hB, hA => by
    rw [List.cons_append, seqc, seqc_new hB (fun p hp => hA p (List.mem_cons_of_mem _ hp))]
    refine valOf_congr (fun q hq => if_neg (fun e => ?_))
    exact hA o List.mem_cons_self (e ▸ hq)

/-- `g` is `f` with copies instead of phis: the copy at the end of a block for `(x, v)` is at the place of `x`. -/
structure Removed (D : Nat → Prop) (f g : Fn) (R : List Nat) (l k : Nat → Nat) (s : Val → Val) : Prop where
  sub : Sub D s l k id
  inside : ∀ b ∈ R, ∀ x ∈ f.body b, ∀ v ∈ operands (f.insn x), ∀ y, v = .insn y → D y
  entry : g.entry = f.entry
  succs : g.succs = f.succs
  insn : ∀ b ∈ R, ∀ x ∈ codeOf f b, g.insn x = mapOps s (f.insn x) ∧ k x = l x
  load : ∀ b ∈ R, ∀ x ∈ codeOf f b, (f.insn x).op = .load → ∀ a, (f.insn x).vals = [.insn a] → s (.insn a) = .insn a
  body : ∀ b ∈ R, ∃ pre N tail, codeOf f b = pre ++ tail ∧ g.body b = pre ++ (N ++ tail) ∧
    (∀ x ∈ pre, control (f.insn x).op = false) ∧ (tail = [] ∨ ∃ z, tail = [z] ∧ control (f.insn z).op = true ∧ (f.insn z).op ≠ .phi) ∧
    All2 (fun n o => (g.insn n).op = .assign ∧ (g.insn n).aluOp ≠ .w32 ∧ (g.insn n).vals = [s o.2] ∧ k n = l o.1) N (copiesAt f R b)
  nophi : ∀ b ∈ R, ∀ x ∈ g.body b, (g.insn x).op ≠ .phi

theorem exec_assign {W : World} {l : Nat → Nat} {x : Nat} {i : Insn} {v : Val} {τ : Loc.St} (h1 : i.op = .assign) (h2 : i.aluOp ≠ .w32)
    (h3 : i.vals = [v]) {y : BitVec 64} (h4 : IR.eval (view l τ) v = some y) : Loc.exec W l x i τ = some (τ.set (l x) y) := by
  rw [exec_other (by rw [h1]; simp) (by rw [h1]; simp) (by rw [h1]; simp) (by rw [h1]; simp)]
  simp [IR.exec, h1, h3, h2, h4, IR.St.set]

theorem eval_valOf {l : Nat → Nat} {τ : Loc.St} {v : Val} (h : v ≠ .undef) : IR.eval (view l τ) v = some (valOf l τ.cell v) := by
  cases v with
  | const => rfl
  | insn y => rfl
  | undef => exact absurd rfl h

/-- Running the copies. -/
theorem run_copies {W : World} {D : Nat → Prop} {g : Fn} {l k : Nat → Nat} {s : Val → Val} (hs : Sub D s l k id) {b : Nat} {tail : List Nat} :
    ∀ {N : List Nat} {C : List (Nat × Val)}, All2 (fun n o => (g.insn n).op = .assign ∧ (g.insn n).aluOp ≠ .w32 ∧
      (g.insn n).vals = [s o.2] ∧ k n = l o.1) N C → (∀ o ∈ C, o.2 ≠ .undef) → (∀ o ∈ C, ∀ y, o.2 = .insn y → D y) → ∀ (τ : Loc.St) (m : Nat),
    Loc.run W g k (N.length + m) b (N ++ tail) τ = Loc.run W g k m b tail { τ with cell := seqc l C τ.cell }
  | [], [], .nil, _, _, τ, m => by simp [seqc]
  | n :: N, o :: C, .cons ⟨h1, h2, h3, h4⟩ hrest, hd, hD, τ, m => by
    have ev : IR.eval (view k τ) (s o.2) = some (valOf l τ.cell o.2) := by
      rw [hs.eval (τ := τ) (hD o List.mem_cons_self) (fun q _ => rfl)]
      exact eval_valOf (hd o List.mem_cons_self)
    have e1 : Loc.exec W k n (g.insn n) τ = some (τ.set (l o.1) (valOf l τ.cell o.2)) := by
      rw [exec_assign h1 h2 h3 ev, h4]
    have e2 : Loc.step W g k b (n :: (N ++ tail)) τ = .goto b (N ++ tail) (τ.set (l o.1) (valOf l τ.cell o.2)) := by
      unfold Loc.step
      simp [h1, Norm.Op.condJmp, e1]
    have : (n :: N).length + m = (N.length + m) + 1 := by simp; omega
    rw [this, List.cons_append, Loc.run, e2]
    dsimp only
    rw [run_copies hs hrest (fun o ho => hd o (List.mem_cons_of_mem _ ho)) (fun o ho => hD o (List.mem_cons_of_mem _ ho))]
    rfl

theorem mem_copiesAt {f : Fn} {R : List Nat} {p : Nat} {o : Nat × Val} :
    o ∈ copiesAt f R p ↔ ∃ c ∈ R, o.1 ∈ phisOf f c ∧ (p, o.2) ∈ (f.insn o.1).phi := by
  unfold copiesAt
  constructor
  · intro h
    obtain ⟨y, hy, h⟩ := List.mem_flatMap.1 h
    obtain ⟨c, hc, hy⟩ := List.mem_flatMap.1 hy
    obtain ⟨q, hq, rfl⟩ := List.mem_map.1 h
    obtain ⟨h1, h2⟩ := List.mem_filter.1 hq
    have : q.1 = p := by simpa using h2
    subst this
    exact ⟨c, hc, hy, h1⟩
  · rintro ⟨c, hc, h1, h2⟩
    refine List.mem_flatMap.2 ⟨o.1, List.mem_flatMap.2 ⟨c, hc, h1⟩, List.mem_map.2 ⟨(p, o.2), List.mem_filter.2 ⟨h2, by simp⟩, rfl⟩⟩

theorem copies_inside {D : Nat → Prop} {f g : Fn} {R : List Nat} {l k : Nat → Nat} {s : Val → Val} (h : Removed D f g R l k s) {b : Nat} :
    ∀ o ∈ copiesAt f R b, ∀ y, o.2 = .insn y → D y := by
  intro o ho
  obtain ⟨c, hc, h1, h2⟩ := mem_copiesAt.1 ho
  have hp := phisOf_phi h1
  refine h.inside c hc o.1 (by rw [← phisOf_append f c]; exact List.mem_append_left _ h1) o.2 ?_
  unfold operands
  simp only [hp, if_true]
  exact List.mem_append_left _ (List.mem_append_right _ (List.mem_map.2 ⟨_, h2, rfl⟩))

/-- The steps agree, where the second function has to run `Extra` before it is in front of the corresponding instruction. -/
structure At (f g : Fn) (R : List Nat) (l k : Nat → Nat) (s : Val → Val) (b : Nat) (rest rest' : List Nat) (τ τ' : Loc.St) : Prop where
  block : b ∈ R
  split : ∃ p0 r N tail, codeOf f b = p0 ++ r ++ tail ∧ rest = r ++ tail ∧ rest' = r ++ (N ++ tail) ∧
    (∀ x ∈ r, control (f.insn x).op = false) ∧ (tail = [] ∨ ∃ z, tail = [z] ∧ control (f.insn z).op = true ∧ (f.insn z).op ≠ .phi) ∧
    All2 (fun n o => (g.insn n).op = .assign ∧ (g.insn n).aluOp ≠ .w32 ∧ (g.insn n).vals = [s o.2] ∧ k n = l o.1) N (copiesAt f R b)
  same : Same f l id b rest τ τ'

theorem at_start {D : Nat → Prop} {f g : Fn} {R : List Nat} {l k : Nat → Nat} {s : Val → Val} (h : Removed D f g R l k s) {b : Nat} (hb : b ∈ R)
    {τ τ' : Loc.St} (hs : Same f l id b (codeOf f b) τ τ') : At f g R l k s b (codeOf f b) (g.body b) τ τ' := by
  obtain ⟨pre, N, tail, e1, e2, h1, h2, h3⟩ := h.body b hb
  exact ⟨hb, ⟨[], pre, N, tail, by simpa using e1, e1, e2, h1, h2, h3⟩, hs⟩

theorem all_takeWhile {p : Nat → Bool} : ∀ {l : List Nat}, (∀ x ∈ l, p x = false) → l.takeWhile p = [] ∧ l.dropWhile p = l
  | [], _ => ⟨rfl, rfl⟩
  | a :: l, h => by simp [h a List.mem_cons_self]

theorem enter_g {D : Nat → Prop} {f g : Fn} {R : List Nat} {l k : Nat → Nat} {s : Val → Val} (h : Removed D f g R l k s) {b t : Nat} (ht : t ∈ R) (τ : Loc.St) :
    Loc.enter g k b t τ = .goto t (g.body t) τ := by
  have := all_takeWhile (p := fun x => (g.insn x).op == .phi) (l := g.body t) (fun x hx => by
    have := h.nophi t ht x hx
    simpa using this)
  unfold Loc.enter phisOf codeOf
  rw [this.1, this.2]
  rfl

/-- The copies do what the phis of the block that is entered do. -/
theorem enter_same {f : Fn} {R : List Nat} {l : Nat → Nat} (hf : Flow f R) (hn : (R.flatMap (phisOf f)).Nodup) (hc : CopiesFit f R l) {b t : Nat} (hb : b ∈ R) (ht : t ∈ f.succs b)
    {τ τ' : Loc.St} (hs : Same f l id b [] τ τ') {e : Nat → BitVec 64} (he : Loc.phiAssign f l b τ (phisOf f t) τ.cell = some e) :
    Same f l id t (codeOf f t) { τ with cell := e } { τ' with cell := seqc l (copiesAt f R b) τ'.cell } := by
  have htR := hf.succs b hb t ht
  refine ⟨fun q hq => ?_, hs.mem, hs.trace⟩
  show seqc l (copiesAt f R b) τ'.cell q = e q
  by_cases hex : ∃ o ∈ copiesAt f R b, l o.1 = q
  · obtain ⟨A, ⟨x, v⟩, B, ec, hx, hB⟩ := last_split (fun o : Nat × Val => l o.1 = q) _ hex
    dsimp only at hx
    subst hx
    obtain ⟨hxp, hA⟩ := hc.edge b hb t ht A x v B ec hq hB
    rw [ec, seqc_new hB hA]
    -- the phi `x` is the last one of the block at this place
    obtain ⟨xs, ys, ep⟩ := List.append_of_mem hxp
    -- operands of the phi
    have hxv : (b, v) ∈ (f.insn x).phi := by
      have : (x, v) ∈ copiesAt f R b := by rw [ec]; simp
      obtain ⟨y, _, hy⟩ := List.mem_flatMap.1 this
      obtain ⟨o, ho, e⟩ := List.mem_map.1 hy
      obtain ⟨ho1, ho2⟩ := List.mem_filter.1 ho
      have h1 : o.1 = b := by simpa using ho2
      cases e
      rw [← h1]; exact ho1
    have hfind : (f.insn x).phi.find? (fun o => o.1 == b) = some (b, v) := by
      have hn := hc.once t htR x hxp
      generalize (f.insn x).phi = ps at hxv hn ⊢
      induction ps with
      | nil => cases hxv
      | cons o ps ih =>
        rw [List.map_cons, List.nodup_cons] at hn
        by_cases h : o.1 = b
        · rcases List.mem_cons.1 hxv with rfl | hm
          · simp
          · exact absurd (List.mem_map.2 ⟨_, hm, h.symm⟩) hn.1
        · rw [List.find?_cons_of_neg (by simpa using h)]
          refine ih ?_ hn.2
          rcases List.mem_cons.1 hxv with rfl | hm
          · exact absurd rfl h
          · exact hm
    have hval : phiVal (f.insn x) b (view l τ) = some (valOf l τ'.cell v) := by
      unfold phiVal
      rw [hfind]
      show IR.eval (view l τ) v = _
      rw [eval_valOf (hc.defined b hb (x, v) (by rw [ec]; simp))]
      refine congrArg some (valOf_congr (fun q hq => ?_)).symm
      refine hs.cell q ?_
      cases v with
      | insn y =>
        simp only [place, List.mem_singleton] at hq
        exact .phi ht hxp hxv hq
      | const => cases hq
      | undef => cases hq
    -- no later phi of the block is at this place
    have hlate : ∀ y ∈ ys, l y ≠ l x := by
      intro y hy hl
      have hyp : y ∈ phisOf f t := by rw [ep]; simp [hy]
      have hsome : (phiVal (f.insn y) b (view l τ)).isSome = true := (phiAssign_isSome (e := τ.cell)).1 (by rw [he]; rfl) y hyp
      -- its copy comes after the one of `x`
      obtain ⟨R1, R2, eR⟩ := List.append_of_mem htR
      have hy' : ∃ w, (b, w) ∈ (f.insn y).phi := by
        unfold phiVal at hsome
        cases e : (f.insn y).phi.find? (fun o => o.1 == b) with
        | none => rw [e] at hsome; cases hsome
        | some o => exact ⟨o.2, find_mem e⟩
      obtain ⟨w, hw⟩ := hy'
      have hCB : ∀ (us vs : List Nat) (z : Nat), copiesAt f R b = A ++ (x, v) :: B → R.flatMap (phisOf f) = us ++ x :: vs → z ∈ vs → ∀ w, (b, w) ∈ (f.insn z).phi →
          (∃ o ∈ B, l o.1 = l z) := by
        intro us vs z e1 e2 hz w hw
        unfold copiesAt at e1
        rw [e2, List.flatMap_append, List.flatMap_cons] at e1
        have hone : ((f.insn x).phi.filter (fun o => o.1 == b)).map (fun o => (x, o.2)) = [(x, v)] := by
          have hn := hc.once t htR x hxp
          have : (f.insn x).phi.filter (fun o => o.1 == b) = [(b, v)] := by
            generalize (f.insn x).phi = ps at hxv hn
            clear hfind hval
            induction ps with
            | nil => cases hxv
            | cons o ps ih =>
              rw [List.map_cons, List.nodup_cons] at hn
              by_cases h : o.1 = b
              · have hnil : ps.filter (fun o => o.1 == b) = [] := List.filter_eq_nil_iff.2 (fun p hp hpb => by
                  have : p.1 = b := by simpa using hpb
                  exact hn.1 (List.mem_map.2 ⟨p, hp, this.trans h.symm⟩))
                rcases List.mem_cons.1 hxv with rfl | hm
                · rw [List.filter_cons_of_pos (by simp), hnil]
                · exact absurd (List.mem_map.2 ⟨_, hm, h.symm⟩) hn.1
              · rw [List.filter_cons_of_neg (by simpa using h)]
                refine ih ?_ hn.2
                rcases List.mem_cons.1 hxv with rfl | hm
                · exact absurd rfl h
                · exact hm
          rw [this]; rfl
        rw [hone] at e1
        have hzin : (z, w) ∈ vs.flatMap (fun x => ((f.insn x).phi.filter (fun o => o.1 == b)).map (fun o => (x, o.2))) :=
          List.mem_flatMap.2 ⟨z, hz, List.mem_map.2 ⟨(b, w), List.mem_filter.2 ⟨hw, by simp⟩, rfl⟩⟩
        rw [e2] at hn
        have hnx := List.nodup_append.1 hn
        have hV : ∀ o ∈ vs.flatMap (fun x => ((f.insn x).phi.filter (fun o => o.1 == b)).map (fun o => (x, o.2))), o.1 ≠ x := by
          intro o ho hox
          obtain ⟨u, hu, ho⟩ := List.mem_flatMap.1 ho
          obtain ⟨p, _, e⟩ := List.mem_map.1 ho
          cases e
          dsimp only at hox
          subst hox
          exact (List.nodup_cons.1 hnx.2.1).1 hu
        have hU : ∀ o ∈ us.flatMap (fun x => ((f.insn x).phi.filter (fun o => o.1 == b)).map (fun o => (x, o.2))), o.1 ≠ x := by
          intro o ho hox
          obtain ⟨u, hu, ho⟩ := List.mem_flatMap.1 ho
          obtain ⟨p, _, e⟩ := List.mem_map.1 ho
          cases e
          dsimp only at hox
          subst hox
          exact hnx.2.2 _ hu _ List.mem_cons_self rfl
        generalize vs.flatMap (fun x => ((f.insn x).phi.filter (fun o => o.1 == b)).map (fun o => (x, o.2))) = V at e1 hzin hV
        generalize us.flatMap (fun x => ((f.insn x).phi.filter (fun o => o.1 == b)).map (fun o => (x, o.2))) = U at e1 hU
        -- U ++ (x,v) :: V = A ++ (x,v) :: B
        rw [List.singleton_append] at e1
        rcases List.append_eq_append_iff.1 e1 with ⟨D, eA, eD⟩ | ⟨D, eU, eD⟩
        · cases D with
          | nil =>
            rw [List.nil_append] at eD
            injection eD with _ eD
            exact ⟨_, eD ▸ hzin, rfl⟩
          | cons d D =>
            rw [List.cons_append] at eD
            injection eD with _ eD
            exact absurd rfl (hV (x, v) (by rw [eD]; simp))
        · cases D with
          | nil =>
            rw [List.nil_append] at eD
            injection eD with _ eD
            exact ⟨_, eD ▸ hzin, rfl⟩
          | cons d D =>
            rw [List.cons_append] at eD
            injection eD with e0 eD
            exact absurd rfl (hU (x, v) (by rw [eU, ← e0]; simp))
      obtain ⟨o, ho, hlo⟩ := hCB (R1.flatMap (phisOf f) ++ xs) (ys ++ R2.flatMap (phisOf f)) y ec
        (by rw [eR, List.flatMap_append, List.flatMap_cons, ep]; simp) (by simp [hy]) w hw
      exact hB o ho (hlo.trans hl)
    rw [ep] at he
    have := phiAssign_new he hlate
    rw [hval] at this
    exact Option.some.inj this
  · have hno : ∀ x ∈ phisOf f t, l x ≠ q := by
      intro x hx hl
      have hsome : (phiVal (f.insn x) b (view l τ)).isSome = true := (phiAssign_isSome (e := τ.cell)).1 (by rw [he]; rfl) x hx
      unfold phiVal at hsome
      cases e : (f.insn x).phi.find? (fun o => o.1 == b) with
      | none => rw [e] at hsome; cases hsome
      | some o =>
        refine hex ⟨(x, o.2), List.mem_flatMap.2 ⟨x, List.mem_flatMap.2 ⟨t, htR, hx⟩, List.mem_map.2 ⟨(b, o.2), ?_, rfl⟩⟩, hl⟩
        exact List.mem_filter.2 ⟨find_mem e, by simp⟩
    rw [phiAssign_old he q hno, seqc_old (fun o ho hl => hex ⟨o, ho, hl⟩)]
    exact hs.cell q (.edge ht (fun x hx e => hno x hx e.symm) hq)

/-- More steps. -/
theorem sameOut_mono {r r' : Loc.Res} (h : SameOut r r') : r ≠ .stuck := by cases h <;> simp

theorem tail_step {W : World} {D : Nat → Prop} {f g : Fn} {R : List Nat} {l k : Nat → Nat} {s : Val → Val} (hf : Flow f R) (hn : (R.flatMap (phisOf f)).Nodup)
    (hc : CopiesFit f R l) (h : Removed D f g R l k s) {b : Nat} (hb : b ∈ R) {tail : List Nat} {p0 : List Nat} (et : codeOf f b = p0 ++ tail)
    (ht : tail = [] ∨ ∃ z, tail = [z] ∧ control (f.insn z).op = true ∧ (f.insn z).op ≠ .phi)
    {τ τ' : Loc.St} (hs : Same f l id b tail τ τ') :
    Loc.step W f l b tail τ = .stuck ∨
    (∃ x, Loc.step W f l b tail τ = .done x ∧ Loc.step W g k b tail { τ' with cell := seqc l (copiesAt f R b) τ'.cell } = .done x) ∨
    (Loc.step W f l b tail τ = .thrown ∧ Loc.step W g k b tail { τ' with cell := seqc l (copiesAt f R b) τ'.cell } = .thrown) ∨
    ∃ t τ1 τ1', t ∈ R ∧ Loc.step W f l b tail τ = .goto t (codeOf f t) τ1 ∧
      Loc.step W g k b tail { τ' with cell := seqc l (copiesAt f R b) τ'.cell } = .goto t (g.body t) τ1' ∧ Same f l id t (codeOf f t) τ1 τ1' := by
  generalize hτ : ({ τ' with cell := seqc l (copiesAt f R b) τ'.cell } : Loc.St) = τ2
  have en : ∀ t, t ∈ f.succs b → Same f l id b [] τ τ' → Loc.enter f l b t τ = .stuck ∨ ∃ τ1 τ1', t ∈ R ∧ Loc.enter f l b t τ = .goto t (codeOf f t) τ1 ∧
      Loc.enter g k b t τ2 = .goto t (g.body t) τ1' ∧ Same f l id t (codeOf f t) τ1 τ1' := by
    intro t htb hs
    rw [enter_g h (hf.succs b hb t htb)]
    unfold Loc.enter
    cases e : Loc.phiAssign f l b τ (phisOf f t) τ.cell with
    | none => exact Or.inl rfl
    | some e1 =>
      refine Or.inr ⟨_, _, hf.succs b hb t htb, rfl, rfl, ?_⟩
      rw [← hτ]
      exact enter_same hf hn hc hb htb hs e
  rcases ht with rfl | ⟨z, rfl, hz, hzp⟩
  · unfold Loc.step
    rw [h.succs]
    rcases e : f.succs b with _ | ⟨t, _ | ⟨_, _⟩⟩
    · exact Or.inl rfl
    · rcases en t (by rw [e]; simp) hs with h1 | ⟨τ1, τ1', h1, h2, h3, h4⟩
      · exact Or.inl h1
      · exact Or.inr (Or.inr (Or.inr ⟨t, τ1, τ1', h1, h2, h3, h4⟩))
    · exact Or.inl rfl
  · have hzc : z ∈ codeOf f b := by rw [et]; simp
    have hzb : z ∈ f.body b := by rw [← phisOf_append f b]; exact List.mem_append_right _ hzc
    obtain ⟨eg, -⟩ := h.insn b hb z hzc
    have hs' := same_tail hz hs
    have hev : ∀ w ∈ (f.insn z).vals, IR.eval (view k τ2) (s w) = IR.eval (view l τ) w := by
      intro w hw
      refine h.sub.eval (h.inside b hb z hzb w (by unfold operands; simp [hw])) (fun q hq => ?_)
      have hrd : q ∈ reads l (f.insn z) := by rw [reads_plain hz]; exact List.mem_flatMap.2 ⟨w, hw, hq⟩
      rw [← hτ]
      show seqc l (copiesAt f R b) τ'.cell q = _
      rw [seqc_old (q := q) (fun o ho (e : l o.1 = q) => hc.jump b hb z hzb hz hzp o ho (e ▸ hrd))]
      exact hs.cell q (.read hrd)
    have go : ∀ t, t ∈ f.succs b → (Loc.enter f l b t τ = .stuck ∨
      (∃ x, Loc.enter f l b t τ = .done x ∧ Loc.enter g k b t τ2 = .done x) ∨
      (Loc.enter f l b t τ = .thrown ∧ Loc.enter g k b t τ2 = .thrown) ∨
      ∃ t1 τ1 τ1', t1 ∈ R ∧ Loc.enter f l b t τ = .goto t1 (codeOf f t1) τ1 ∧
        Loc.enter g k b t τ2 = .goto t1 (g.body t1) τ1' ∧ Same f l id t1 (codeOf f t1) τ1 τ1') := by
      intro t ht
      rcases en t ht hs' with h1 | ⟨τ1, τ1', h1, h2, h3, h4⟩
      · exact Or.inl h1
      · exact Or.inr (Or.inr (Or.inr ⟨t, τ1, τ1', h1, h2, h3, h4⟩))
    have b1 : (g.insn z).bb1 = (f.insn z).bb1 := by rw [eg]; rfl
    have b2 : (g.insn z).bb2 = (f.insn z).bb2 := by rw [eg]; rfl
    have bo : (g.insn z).op = (f.insn z).op := by rw [eg]; rfl
    rcases control_cases hz with h1 | h1 | h1 | h1 | h1
    · rw [step_ja h1, step_ja (bo.trans h1), b1]
      exact go _ (hf.ja b hb z hzb h1)
    · rw [step_cond h1, step_cond (by rw [bo]; exact h1), b1, b2, eg, taken_out hev]
      cases taken (f.insn z) (view l τ) with
      | none => exact Or.inl rfl
      | some t =>
        cases t
        · exact go _ (hf.cond b hb z hzb h1).1
        · exact go _ (hf.cond b hb z hzb h1).2
    · rw [step_ret h1, step_ret (bo.trans h1)]
      have bv : (g.insn z).vals = (f.insn z).vals.map s := by rw [eg]; rfl
      rw [bv]
      rcases e : (f.insn z).vals with _ | ⟨v, _ | ⟨_, _⟩⟩
      · exact Or.inl rfl
      · simp only [List.map_cons, List.map_nil]
        rw [hev v (by rw [e]; simp)]
        cases IR.eval (view l τ) v with
        | none => exact Or.inl rfl
        | some y => exact Or.inr (Or.inl ⟨y, rfl, rfl⟩)
      · exact Or.inl rfl
    · refine Or.inr (Or.inr (Or.inl ⟨step_throw h1, step_throw (bo.trans h1)⟩))
    · exact absurd h1 hzp

theorem run_removed {W : World} {D : Nat → Prop} {f g : Fn} {R : List Nat} {l k : Nat → Nat} {s : Val → Val} (hf : Flow f R) (hn : (R.flatMap (phisOf f)).Nodup)
    (hc : CopiesFit f R l) (h : Removed D f g R l k s) : ∀ (n : Nat) {b : Nat} {rest rest' : List Nat} {τ τ' : Loc.St},
    At f g R l k s b rest rest' τ τ' →
    Loc.run W f l n b rest τ = .stuck ∨ ∃ m, n ≤ m ∧ SameOut (Loc.run W f l n b rest τ) (Loc.run W g k m b rest' τ')
  | 0, b, rest, rest', τ, τ', ha => Or.inr ⟨0, Nat.le_refl _, .running _ _ _ _ _ _ ha.same.mem ha.same.trace⟩
  | n + 1, b, rest, rest', τ, τ', ha => by
    obtain ⟨hb, ⟨p0, r, N, tail, e0, e1, e2, hr, ht, hN⟩, hs⟩ := ha
    subst e1; subst e2
    cases r with
    | nil =>
      rw [List.nil_append] at hs ⊢
      rw [List.nil_append]
      rw [List.append_nil] at e0
      have key := tail_step (W := W) hf hn hc h hb e0 ht hs
      have hDc : ∀ o ∈ copiesAt f R b, ∀ y, o.2 = .insn y → D y := copies_inside h
      have hrun := run_copies (W := W) (b := b) (tail := tail) h.sub hN (fun o ho => hc.defined b hb o ho) hDc τ'
      rcases key with h1 | ⟨x, h1, h2⟩ | ⟨h1, h2⟩ | ⟨t, τ1, τ1', h1, h2, h3, h4⟩
      · left; unfold Loc.run; rw [h1]
      · refine Or.inr ⟨N.length + (n + 1), by omega, ?_⟩
        rw [hrun]
        unfold Loc.run
        rw [h1, h2]
        exact .done _ _ _ hs.mem hs.trace
      · refine Or.inr ⟨N.length + (n + 1), by omega, ?_⟩
        rw [hrun]
        unfold Loc.run
        rw [h1, h2]
        exact .thrown _ _ hs.mem hs.trace
      · rcases run_removed hf hn hc h n (at_start h h1 h4) with hst | ⟨m, hm, ho⟩
        · left; unfold Loc.run; rw [h2]; exact hst
        · refine Or.inr ⟨N.length + (m + 1), by omega, ?_⟩
          rw [hrun]
          unfold Loc.run
          rw [h2, h3]
          exact ho
    | cons x r =>
      have hxc : x ∈ codeOf f b := by rw [e0]; simp
      obtain ⟨eg, hk⟩ := h.insn b hb x hxc
      have hcx := hr x List.mem_cons_self
      have two := exec_two (W := W) h.sub (x := x) (i := f.insn x) (τ := τ) (τ' := τ') (h.inside b hb x (by rw [← phisOf_append f b]; exact List.mem_append_right _ hxc)) hcx hk (fun q _ => rfl) hs.mem hs.trace
        (fun q hq => hs.cell q (.read hq)) (h.load b hb x hxc)
      rw [List.cons_append, List.cons_append]
      rcases two with ⟨x1, _⟩ | ⟨τ1, τ1', x1, x2, hB⟩
      · left
        unfold Loc.run
        rw [step_plain hcx, x1]
      · have hs1 : Same f l id b (r ++ tail) τ1 τ1' := by
          refine ⟨fun q hq => ?_, hB.mem, hB.trace⟩
          by_cases hw : q ∈ writes l x (f.insn x)
          · exact hB.new q hw
          · rw [hB.old q hw]
            have := hB.old' q (by simpa using hw)
            show τ1'.cell q = _
            rw [this]
            exact hs.cell q (.skip hw hq)
        have hat : At f g R l k s b (r ++ tail) (r ++ (N ++ tail)) τ1 τ1' :=
          ⟨hb, ⟨p0 ++ [x], r, N, tail, by rw [e0]; simp, rfl, rfl, fun y hy => hr y (List.mem_cons_of_mem _ hy), ht, hN⟩, hs1⟩
        rcases run_removed hf hn hc h n hat with hst | ⟨m, hm, ho⟩
        · left; unfold Loc.run; rw [step_plain hcx, x1]; exact hst
        · refine Or.inr ⟨m + 1, by omega, ?_⟩
          unfold Loc.run
          rw [step_plain hcx, x1, step_plain (by rw [eg]; exact hcx), eg, x2]
          exact ho

/-- Phis can be replaced by the copies. -/
theorem keeps_removed {W : World} {D : Nat → Prop} {f g : Fn} {R : List Nat} {l k : Nat → Nat} {s : Val → Val} (hf : Flow f R) (hn : (R.flatMap (phisOf f)).Nodup)
    (hc : CopiesFit f R l) (h : Removed D f g R l k s) (he : phisOf f f.entry = []) (τ : Loc.St) : Keeps W f l g k τ := by
  intro n
  have e : codeOf f f.entry = f.body f.entry := by
    have := phisOf_append f f.entry
    rw [he] at this
    exact this
  unfold Loc.runFn
  rw [h.entry, ← e]
  exact run_removed hf hn hc h n (at_start h hf.entry ⟨fun _ _ => rfl, rfl, rfl⟩)

end Verif.RemPhi
