import Verif.Loc.Run
/-!
# Renaming places
-/
namespace Verif.Loc
open Verif Verif.IR Verif.Edit

/-- The states agree on the places that are needed. -/
structure Same (f : Fn) (l c : Nat → Nat) (b : Nat) (rest : List Nat) (τ τ' : St) : Prop where
  cell : ∀ q, Needed f l q b rest → τ'.cell (c q) = τ.cell q
  mem : τ'.mem = τ.mem
  trace : τ'.trace = τ.trace

inductive StepRel (R : Nat → List Nat → St → St → Prop) : Step → Step → Prop
  | goto (b : Nat) (rest : List Nat) (τ τ' : St) : R b rest τ τ' → StepRel R (.goto b rest τ) (.goto b rest τ')
  | done (x : BitVec 64) : StepRel R (.done x) (.done x)
  | thrown : StepRel R .thrown .thrown
  | stuck : StepRel R .stuck .stuck

theorem sub_id (l c : Nat → Nat) : Sub (fun _ => True) id l (fun y => c (l y)) c := ⟨fun _ _ _ _ => rfl, rfl, fun y _ => ⟨y, rfl, rfl⟩⟩

theorem mapOps_id (i : Insn) : mapOps id i = i := by
  obtain ⟨op, vals, phi, addr, addrOff, addrKind, aluOp, vrType, bb1, bb2, aux, immKind, imm64⟩ := i
  simp [mapOps]

theorem phiVal_ren {l c : Nat → Nat} {f : Fn} {b t x : Nat} {τ τ' : St} (ht : t ∈ f.succs b) (hx : x ∈ phisOf f t)
    (h : Same f l c b [] τ τ') : phiVal (f.insn x) b (view (fun y => c (l y)) τ') = phiVal (f.insn x) b (view l τ) := by
  unfold phiVal
  cases e : (f.insn x).phi.find? (fun o => o.1 == b) with
  | none => rfl
  | some o =>
    have hm := find_mem e
    show IR.eval _ (id o.2) = IR.eval _ o.2
    refine (sub_id l c).eval (fun _ _ => trivial) (fun q hq => h.cell q ?_)
    cases hv : o.2 with
    | insn y =>
      rw [hv] at hq hm
      simp only [place, List.mem_singleton] at hq
      exact .phi ht hx hm hq
    | const => rw [hv] at hq; cases hq
    | undef => rw [hv] at hq; cases hq

theorem enter_ren {f : Fn} {R : List Nat} {l c : Nat → Nat} (ha : Apart f R l c) {b t : Nat} {τ τ' : St} (ht : t ∈ f.succs b) (htb : t ∈ R)
    (h : Same f l c b [] τ τ') : StepRel (Same f l c) (enter f l b t τ) (enter f (fun y => c (l y)) b t τ') := by
  have hv : ∀ x ∈ phisOf f t, phiVal (f.insn x) b (view (fun y => c (l y)) τ') = phiVal (f.insn x) b (view l τ) :=
    fun x hx => phiVal_ren ht hx h
  have i1 := phiAssign_isSome (f := f) (l := l) (p := b) (τ := τ) (xs := phisOf f t) (e := τ.cell)
  have i2 := phiAssign_isSome (f := f) (l := fun y => c (l y)) (p := b) (τ := τ') (xs := phisOf f t) (e := τ'.cell)
  have i3 : (phiAssign f (fun y => c (l y)) b τ' (phisOf f t) τ'.cell).isSome = (phiAssign f l b τ (phisOf f t) τ.cell).isSome := by
    rw [Bool.eq_iff_iff, i1, i2]
    exact forall_congr' (fun x => forall_congr' (fun hx => by rw [hv x hx]))
  unfold enter
  cases e : phiAssign f l b τ (phisOf f t) τ.cell with
  | none =>
    rw [e] at i3
    cases e' : phiAssign f (fun y => c (l y)) b τ' (phisOf f t) τ'.cell with
    | none => exact .stuck
    | some _ => rw [e'] at i3; cases i3
  | some e1 =>
    rw [e] at i3
    cases e' : phiAssign f (fun y => c (l y)) b τ' (phisOf f t) τ'.cell with
    | none => rw [e'] at i3; cases i3
    | some e2 =>
      refine .goto _ _ _ _ ⟨fun q hq => ?_, h.mem, h.trace⟩
      show e2 (c q) = e1 q
      by_cases hp : ∃ x ∈ phisOf f t, l x = q
      · obtain ⟨xs, x, ys, es, hx, hys⟩ := last_split (fun x => l x = q) _ hp
        subst hx
        rw [es] at e e'
        have a1 := phiAssign_new e (fun y hy => hys y hy)
        have a2 := phiAssign_new (l := fun y => c (l y)) e' (fun y hy hc => by
          obtain ⟨us, vs, ev⟩ := List.append_of_mem hy
          obtain ⟨z, hz, hz'⟩ := ha.phis t htb (l x) hq (xs ++ x :: us) y vs (by rw [es, ev]; simp) (fun hl => hys y hy hl) hc
          exact hys z (by rw [ev]; simp [hz]) hz')
        rw [hv x (by rw [es]; simp), a1] at a2
        exact (Option.some.inj a2).symm
      · rw [phiAssign_old e q (fun x hx hl => hp ⟨x, hx, hl⟩), phiAssign_old (l := fun y => c (l y)) e' (c q) (fun x hx hl => by
          obtain ⟨us, vs, ev⟩ := List.append_of_mem hx
          obtain ⟨z, hz, hz'⟩ := ha.phis t htb q hq us x vs ev (fun hl => hp ⟨x, hx, hl⟩) hl
          exact hp ⟨z, by rw [ev]; simp [hz], hz'⟩)]
        exact h.cell q (.edge ht (fun x hx hl => hp ⟨x, hx, hl.symm⟩) hq)

/-- Control instructions write nothing. -/
theorem writes_control {l : Nat → Nat} {x : Nat} {i : Insn} (h : control i.op = true) : writes l x i = [] := by
  obtain ⟨op, vals, phi, addr, addrOff, addrKind, aluOp, vrType, bb1, bb2, aux, immKind, imm64⟩ := i
  cases op <;> simp_all [writes, control, Norm.Op.condJmp]

theorem reads_plain {l : Nat → Nat} {i : Insn} (h : control i.op = true) : reads l i = i.vals.flatMap (place l) := by
  obtain ⟨op, vals, phi, addr, addrOff, addrKind, aluOp, vrType, bb1, bb2, aux, immKind, imm64⟩ := i
  cases op <;> simp_all [reads, control, Norm.Op.condJmp]

theorem same_tail {f : Fn} {l c : Nat → Nat} {b x : Nat} {rest : List Nat} {τ τ' : St} (hx : control (f.insn x).op = true)
    (h : Same f l c b (x :: rest) τ τ') : Same f l c b rest τ τ' :=
  ⟨fun q hq => h.cell q (.skip (by rw [writes_control hx]; simp) hq), h.mem, h.trace⟩

/-- A copy puts the contents of one place at another. -/
theorem exec_copy {W : World} {l : Nat → Nat} {x y : Nat} {i : Insn} {τ : St} (h1 : i.op = .assign) (h2 : i.aluOp ≠ .w32)
    (h3 : i.vals = [.insn y]) : exec W l x i τ = some (τ.set (l x) (τ.cell (l y))) := by
  rw [exec_other (by rw [h1]; simp) (by rw [h1]; simp) (by rw [h1]; simp) (by rw [h1]; simp)]
  simp [IR.exec, h1, h3, h2, IR.eval, IR.St.set, view]

theorem step_ren {W : World} {f : Fn} {R : List Nat} {l c : Nat → Nat} (hf : Flow f R) (ha : Apart f R l c)
    {b : Nat} (hb : b ∈ R) {rest : List Nat} (hr : ∃ pre, f.body b = pre ++ rest) {τ τ' : St} (h : Same f l c b rest τ τ') :
    StepRel (Same f l c) (step W f l b rest τ) (step W f (fun y => c (l y)) b rest τ') := by
  have hs := sub_id l c
  cases rest with
  | nil =>
    unfold step
    rcases e : f.succs b with _ | ⟨t, _ | ⟨_, _⟩⟩
    · exact .stuck
    · have ht : t ∈ f.succs b := by rw [e]; simp
      exact enter_ren ha ht (hf.succs b hb t ht) h
    · exact .stuck
  | cons x rest =>
    obtain ⟨pre, eb⟩ := hr
    have hxb : x ∈ f.body b := by rw [eb]; simp
    have w1 := hf.ja b hb x hxb
    have w2 := hf.cond b hb x hxb
    have hev : ∀ w ∈ (f.insn x).vals, control (f.insn x).op = true → IR.eval (view (fun y => c (l y)) τ') w = IR.eval (view l τ) w := by
      intro w hw hc
      refine hs.eval (v := w) (fun _ _ => trivial) (fun q hq => h.cell q (.read ?_))
      rw [reads_plain hc]
      exact List.mem_flatMap.2 ⟨w, hw, hq⟩
    unfold step
    dsimp only
    by_cases h1 : (f.insn x).op = .ja
    · rw [if_pos h1, if_pos h1]
      have hc : control (f.insn x).op = true := by simp [control, h1]
      have hre := hf.last b hb pre x rest eb hc (by rw [h1]; simp)
      subst hre
      exact enter_ren ha (w1 h1) (hf.succs b hb _ (w1 h1)) (same_tail hc h)
    rw [if_neg h1, if_neg h1]
    by_cases h2 : (f.insn x).op.condJmp = true
    · rw [if_pos h2, if_pos h2]
      have hc : control (f.insn x).op = true := by simp [control, h2]
      have hre := hf.last b hb pre x rest eb hc (by intro h; rw [h] at h2; cases h2)
      subst hre
      obtain ⟨s1, s2⟩ := w2 h2
      have et : taken (f.insn x) (view (fun y => c (l y)) τ') = taken (f.insn x) (view l τ) := by
        have := taken_out (i := f.insn x) (s := id) (σ := view l τ) (σ' := view (fun y => c (l y)) τ') (fun w hw => hev w hw hc)
        rw [mapOps_id] at this
        exact this
      rw [et]
      cases taken (f.insn x) (view l τ) with
      | none => exact .stuck
      | some t =>
        cases t
        · exact enter_ren ha s1 (hf.succs b hb _ s1) (same_tail hc h)
        · exact enter_ren ha s2 (hf.succs b hb _ s2) (same_tail hc h)
    rw [if_neg h2, if_neg h2]
    by_cases h3 : (f.insn x).op = .ret
    · rw [if_pos h3, if_pos h3]
      have hc : control (f.insn x).op = true := by simp [control, h3]
      rcases e : (f.insn x).vals with _ | ⟨v, _ | ⟨_, _⟩⟩
      · exact .stuck
      · dsimp only
        rw [hev v (by rw [e]; simp) hc]
        cases IR.eval (view l τ) v with
        | none => exact .stuck
        | some y => exact .done y
      · exact .stuck
    rw [if_neg h3, if_neg h3]
    by_cases h4 : (f.insn x).op = .throw
    · rw [if_pos h4, if_pos h4]; exact .thrown
    rw [if_neg h4, if_neg h4]
    by_cases h5 : (f.insn x).op = .phi
    · rw [if_pos h5, if_pos h5]; exact .stuck
    rw [if_neg h5, if_neg h5]
    have hc : control (f.insn x).op = false := by simp [control, h1, h2, h3, h4, h5]
    have two := exec_two (W := W) hs (x := x) (i := f.insn x) (τ := τ) (τ' := τ') (fun _ _ _ _ => trivial) hc rfl (fun q hq => ha.fixed q (by omega)) h.mem h.trace
      (fun q hq => h.cell q (.read hq)) (fun _ _ _ => rfl)
    rw [mapOps_id] at two
    rcases two with ⟨e1, e2⟩ | ⟨τ1, τ1', e1, e2, hB⟩
    · rw [e1, e2]; exact .stuck
    · rw [e1, e2]
      refine .goto _ _ _ _ ⟨fun q hq => ?_, hB.mem, hB.trace⟩
      by_cases hw : q ∈ writes l x (f.insn x)
      · exact hB.new q hw
      · by_cases hcl : c q ∈ (writes l x (f.insn x)).map c
        · obtain ⟨w, hw1, hw2⟩ := List.mem_map.1 hcl
          obtain ⟨o1, o2, y, o3, o4⟩ := ha.insns b hb pre x rest eb q hq w hw1 (fun e => hw (e ▸ hw1)) hw2
          have hwx : w = l x := by
            have : writes l x (f.insn x) = [l x] := writes_other hc (by rw [o1]; simp) (by rw [o1]; simp) (by rw [o1]; simp) (by rw [o1]; simp)
            rw [this] at hw1
            simpa using hw1
          rw [exec_copy o1 o2 o3] at e1 e2
          cases e1; cases e2
          have hne : q ≠ l x := fun e => hw (by rw [e, ← hwx]; exact hw1)
          have hn : τ'.cell (c q) = τ.cell q := h.cell q (.skip hw hq)
          show (if c q = c (l x) then τ'.cell (c (l y)) else τ'.cell (c q)) = (if q = l x then τ.cell (l y) else τ.cell q)
          rw [o4, if_neg hne, ← hn]
          split <;> rfl
        · rw [hB.old' _ hcl, hB.old _ hw]
          exact h.cell q (.skip hw hq)

/-- Where a step leads to. -/
theorem step_where {W : World} {f : Fn} {R : List Nat} {l : Nat → Nat} (hf : Flow f R) {b : Nat} (hb : b ∈ R) {rest : List Nat} {τ : St}
    (hr : ∃ pre, f.body b = pre ++ rest) {b' : Nat} {rest' : List Nat} {τ' : St} (h : step W f l b rest τ = .goto b' rest' τ') :
    b' ∈ R ∧ ∃ pre, f.body b' = pre ++ rest' := by
  have en : ∀ t, t ∈ f.succs b → enter f l b t τ = .goto b' rest' τ' → b' ∈ R ∧ ∃ pre, f.body b' = pre ++ rest' := by
    intro t ht he
    unfold enter at he
    cases e : phiAssign f l b τ (phisOf f t) τ.cell with
    | none => rw [e] at he; cases he
    | some e1 =>
      rw [e] at he
      cases he
      exact ⟨hf.succs b hb _ ht, phisOf f _, (phisOf_append f _).symm⟩
  obtain ⟨pre, eb⟩ := hr
  cases rest with
  | nil =>
    unfold step at h
    rcases e : f.succs b with _ | ⟨t, _ | ⟨_, _⟩⟩
    · rw [e] at h; cases h
    · rw [e] at h; exact en t (by rw [e]; simp) h
    · rw [e] at h; cases h
  | cons x rest =>
    have hxb : x ∈ f.body b := by rw [eb]; simp
    have w1 := hf.ja b hb x hxb
    have w2 := hf.cond b hb x hxb
    unfold step at h
    dsimp only at h
    by_cases h1 : (f.insn x).op = .ja
    · rw [if_pos h1] at h; exact en _ (w1 h1) h
    rw [if_neg h1] at h
    by_cases h2 : (f.insn x).op.condJmp = true
    · rw [if_pos h2] at h
      cases e : taken (f.insn x) (view l τ) with
      | none => rw [e] at h; cases h
      | some t =>
        rw [e] at h
        cases t
        · exact en _ (w2 h2).1 h
        · exact en _ (w2 h2).2 h
    rw [if_neg h2] at h
    by_cases h3 : (f.insn x).op = .ret
    · rw [if_pos h3] at h
      rcases e : (f.insn x).vals with _ | ⟨v, _ | ⟨_, _⟩⟩
      · rw [e] at h; cases h
      · rw [e] at h
        dsimp only at h
        cases e' : IR.eval (view l τ) v <;> rw [e'] at h <;> cases h
      · rw [e] at h; cases h
    rw [if_neg h3] at h
    by_cases h4 : (f.insn x).op = .throw
    · rw [if_pos h4] at h; cases h
    rw [if_neg h4] at h
    by_cases h5 : (f.insn x).op = .phi
    · rw [if_pos h5] at h; cases h
    rw [if_neg h5] at h
    cases e : exec W l x (f.insn x) τ with
    | none => rw [e] at h; cases h
    | some τ1 =>
      rw [e] at h
      cases h
      exact ⟨hb, pre ++ [x], by rw [eb]; simp⟩

/-- Renaming places in a run. -/
theorem run_ren {W : World} {f : Fn} {R : List Nat} {l c : Nat → Nat} (hf : Flow f R) (ha : Apart f R l c) :
    ∀ (n : Nat) {b : Nat} (_ : b ∈ R) {rest : List Nat} (_ : ∃ pre, f.body b = pre ++ rest) {τ τ' : St} (_ : Same f l c b rest τ τ'),
    run W f l n b rest τ = .stuck ∨ SameOut (run W f l n b rest τ) (run W f (fun y => c (l y)) n b rest τ')
  | 0, b, _, rest, _, τ, τ', h => Or.inr (.running _ _ _ _ _ _ h.mem h.trace)
  | n + 1, b, hb, rest, hr, τ, τ', h => by
    have hs := step_ren (W := W) hf ha hb hr h
    unfold run
    cases e : step W f l b rest τ with
    | goto b1 r1 τ1 =>
      rw [e] at hs
      generalize e' : step W f (fun y => c (l y)) b rest τ' = s' at hs
      cases hs with
      | goto _ _ _ τ1' h' =>
        obtain ⟨hb1, hr1⟩ := step_where hf hb hr e
        exact run_ren hf ha n hb1 hr1 h'
    | done x =>
      rw [e] at hs
      generalize e' : step W f (fun y => c (l y)) b rest τ' = s' at hs
      cases hs
      exact Or.inr (.done _ _ _ h.mem h.trace)
    | thrown =>
      rw [e] at hs
      generalize e' : step W f (fun y => c (l y)) b rest τ' = s' at hs
      cases hs
      exact Or.inr (.thrown _ _ h.mem h.trace)
    | stuck => exact Or.inl rfl

end Verif.Loc
