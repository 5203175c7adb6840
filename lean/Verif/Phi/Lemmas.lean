import Verif.Phi.Model
import Verif.IR.PhiSim
import Verif.Dead.Lemmas
/-!
# Lemmas about the removal of trivial phis
-/
namespace Verif.Phi
open Verif Verif.IR Verif.Edit

/-! ## The operands -/

theorem scan_only (x : Nat) : ∀ (l : List (Nat × Val)) (s : Option Val) (r : Option Val), scan x s l = some r →
    (∀ v, s = some v → r = some v) ∧ ∀ o ∈ l, r = some o.2 ∨ o.2 = .insn x
  | [], s, r, h => by
    simp only [scan, Option.some.injEq] at h
    subst h
    exact ⟨fun v h => h, by simp⟩
  | (p, w) :: l, s, r, h => by
    have key : ∀ (h' : (if s.isSome then none else scan x (some w) l) = some r),
        (∀ v, s = some v → r = some v) ∧ ∀ o ∈ (p, w) :: l, r = some o.2 ∨ o.2 = .insn x := by
      intro h'
      cases s with
      | some v => simp at h'
      | none =>
        simp only [Option.isSome_none, Bool.false_eq_true, if_false] at h'
        obtain ⟨h1, h2⟩ := scan_only x l _ r h'
        refine ⟨by simp, fun o ho => ?_⟩
        rcases List.mem_cons.1 ho with rfl | ho
        · exact .inl (h1 w rfl)
        · exact h2 o ho
    cases w with
    | const => exact key h
    | undef => exact key h
    | insn y =>
      simp only [scan] at h
      split at h
      · rename_i hc
        obtain ⟨h1, h2⟩ := scan_only x l _ r h
        refine ⟨h1, fun o ho => ?_⟩
        rcases List.mem_cons.1 ho with rfl | ho
        · rcases hc with hc | hc
          · exact .inl (h1 _ hc)
          · exact .inr (by rw [hc])
        · exact h2 o ho
      · exact key h

theorem scan_ne (x : Nat) : ∀ (l : List (Nat × Val)) (s : Option Val) (v : Val), scan x s l = some (some v) → s ≠ some (.insn x) → v ≠ .insn x
  | [], s, v, h, hs => by
    simp only [scan, Option.some.injEq] at h
    subst h
    exact fun e => hs (by rw [e])
  | (p, w) :: l, s, v, h, hs => by
    have key : w ≠ .insn x → ∀ (h' : (if s.isSome then none else scan x (some w) l) = some (some v)), v ≠ .insn x := by
      intro hw h'
      cases s with
      | some v => simp at h'
      | none =>
        simp only [Option.isSome_none, Bool.false_eq_true, if_false] at h'
        exact scan_ne x l _ v h' (by simpa using hw)
    cases w with
    | const => exact key (by simp) h
    | undef => exact key (by simp) h
    | insn y =>
      simp only [scan] at h
      split at h
      · exact scan_ne x l _ v h hs
      · rename_i hc
        exact key (by simpa using fun e => hc (.inr e)) h

/-- A phi whose operands are all one instruction or itself is found. -/
theorem scan_insn (x y : Nat) : ∀ (l : List (Nat × Val)) (s : Option Val), (s = none ∨ s = some (.insn y)) →
    (∀ o ∈ l, o.2 = .insn y ∨ o.2 = .insn x) → ∃ r, scan x s l = some r
  | [], s, _, _ => ⟨s, rfl⟩
  | (p, w) :: l, s, hs, h => by
    have ih := fun s hs => scan_insn x y l s hs (fun o ho => h o (by simp [ho]))
    rcases h (p, w) (by simp) with e | e
    · dsimp only at e
      subst e
      simp only [scan]
      split
      · exact ih s hs
      · rename_i hc
        rcases hs with rfl | rfl
        · simp only [Option.isSome_none, Bool.false_eq_true, if_false]
          exact ih _ (.inr rfl)
        · exact absurd (.inl rfl) hc
    · dsimp only at e
      subst e
      simp only [scan, or_true, if_true]
      exact ih s hs

/-! ## The user lists -/

theorem Replaced.sound {f g : Fn} {x : Nat} {rep : Val} {S : Nat → Prop} (h : Replaced f x rep S g) (hu : UsersSound f)
    (hx : Live f x) (hr : rep ≠ .insn x)
    (hS : ∀ z, Live f z → S z → (g.users x).count z = 0)
    (hN : ∀ z, Live f z → ¬ S z → (g.users x).count z = (f.users x).count z)
    (hm : ∀ z, z ∈ g.users x → Live f z) (hSl : ∀ z, S z → Live f z) : UsersSound g := by
  intro y hy
  rw [h.live] at hy
  by_cases hyx : y = x
  · subst hyx
    refine ⟨?_, fun z hz => h.live.2 (hm z hz)⟩
    intro z hz
    rw [h.live] at hz
    rcases Classical.em (S z) with hs | hs
    · rw [hS z hz hs, h.insnIn z hs, refs_eq, operands_mapOps, count_sub _ _ _ _ hr]
      simp [hr]
    · rw [hN z hz hs, h.insnOut z hs]
      refine ⟨((hu y hy).1 z hz).1, fun h0 => ?_⟩
      rw [← List.count_pos_iff, hN z hz hs, List.count_pos_iff]
      exact ((hu y hy).1 z hz).2 h0
  · have hcount : ∀ z, Live f z → (g.users y).count z ≤ refs (g.insn z) y ∧ (0 < refs (g.insn z) y → 0 < (g.users y).count z) := by
      intro z hz
      have h0 := (hu y hy).1 z hz
      rw [← List.count_pos_iff] at h0
      rcases Classical.em (S z) with hs | hs
      · rw [h.insnIn z hs, refs_eq, operands_mapOps, count_sub _ _ _ _ hr]
        have hne : ¬ (Val.insn y = Val.insn x) := by simpa using hyx
        rw [if_neg hne]
        rw [refs_eq] at h0
        by_cases e : rep = .insn y
        · rw [h.usersIn y z e hs, if_pos e]; omega
        · rw [h.usersOut y z hyx (.inl e), if_neg e]; omega
      · rw [h.insnOut z hs, h.usersOut y z hyx (.inr hs)]; exact h0
    refine ⟨fun z hz => ?_, ?_⟩
    · rw [← List.count_pos_iff]; exact hcount z (h.live.1 hz)
    intro z hz
    rw [h.live]
    rcases Classical.em (S z) with hs | hs
    · exact hSl z hs
    · have := List.count_pos_iff.2 hz
      rw [h.usersOut y z hyx (.inr hs)] at this
      exact (hu y hy).2 z (List.count_pos_iff.1 this)

theorem mapOps_none {x : Nat} {v : Val} {i : Insn} (h : refs i x = 0) : mapOps (sub x v) i = i := by
  rw [refs_eq] at h
  have h := List.count_eq_zero.1 h
  have hs : ∀ w ∈ operands i, sub x v w = w := fun w hw => by
    unfold sub
    rw [if_neg]; rintro rfl; exact h hw
  obtain ⟨op, vals, phi, addr, addrOff, addrKind, aluOp, vrType, bb1, bb2, aux, immKind, imm64⟩ := i
  unfold mapOps
  unfold operands at hs
  dsimp only at hs ⊢
  congr 1
  · refine (List.map_congr_left fun w hw => hs w (by simp [hw])).trans ?_
    simp
  · split
    · rename_i hp
      refine (List.map_congr_left (g := id) fun o ho => ?_).trans (by simp)
      have := hs o.2 (by simp only [if_pos hp]; simp; exact .inr (.inl ⟨o.1, ho⟩))
      rw [this]; rfl
    · rfl
  · split
    · rename_i hr
      exact hs addr (by simp [hr])
    · rfl

theorem replaceExcept_fine {f : Fn} {x : Nat} {v : Val} (hf : Ok f) (hx : InBody f x) (hv : LiveVal f v) (hne : v ≠ .insn x) :
    Ok (replaceExcept f x v x) ∧ ∀ z, Live f z → z ≠ x → (replaceExcept f x v x).insn z = mapOps (sub x v) (f.insn z) := by
  obtain ⟨h, hX⟩ := replaceExcept_spec (f := f) (x := x) (e := x) hne
  have hxl : Live f x := .inr (.inr hx)
  have hop : ∀ z, ((replaceExcept f x v x).insn z).op = (f.insn z).op := fun z => by
    rcases Classical.em (z ∈ f.users x ∧ z ≠ x) with hs | hs
    · rw [h.insnIn z hs]; rfl
    · rw [h.insnOut z hs]
  refine ⟨⟨h.tidy hf.tidy hv, ?_, ?_, ?_⟩, fun z hz hzx => ?_⟩
  · refine Replaced.sound h hf.users hxl hne ?_ ?_ ?_ ?_
    · intro z _ hs
      rw [hX]
      refine List.count_eq_zero.2 (fun hm => hs.2 (List.eq_of_mem_replicate hm))
    · intro z _ hs
      rw [hX]
      by_cases ez : z = x
      · subst ez; simp
      · have : z ∉ f.users x := fun hm => hs ⟨hm, ez⟩
        rw [List.count_eq_zero.2 this]
        exact List.count_eq_zero.2 (fun hm => ez (List.eq_of_mem_replicate hm))
    · intro z hz
      rw [hX] at hz
      have e1 := List.eq_of_mem_replicate hz
      subst e1; exact hxl
    · intro z hz; exact (hf.users x hxl).2 z hz.1
  · exact hf.phis.filter (D := fun _ => false) (fun b => by rw [h.body]; exact (List.filter_eq_self.2 (fun _ _ => rfl)).symm) (fun b z _ _ => hop z)
  · rw [h.allBbs, h.body]; exact hf.only
  · rcases Classical.em (z ∈ f.users x) with hs | hs
    · exact h.insnIn z ⟨hs, hzx⟩
    · rw [h.insnOut z (fun h => hs h.1)]
      refine (mapOps_none ?_).symm
      apply Classical.byContradiction
      intro hr
      exact hs (((hf.users x hxl).1 z hz).2 (by omega))

/-- The state after a successful removal. -/
structure Gone (f : Fn) (x : Nat) (v : Val) (g : Fn) : Prop where
  ok : Ok g
  body : ∀ b, g.body b = (f.body b).filter (fun z => !decide (z = x))
  insn : ∀ b, ∀ z ∈ f.body b, z ≠ x → g.insn z = mapOps (sub x v) (f.insn z)
  live : ∀ z, Live f z → z ≠ x → g.insn z = mapOps (sub x v) (f.insn z)
  op : ∀ z, (g.insn z).op = (f.insn z).op
  allBbs : g.allBbs = f.allBbs
  entry : g.entry = f.entry
  args : g.args = f.args
  sp : g.sp = f.sp
  succs : g.succs = f.succs
  preds : g.preds = f.preds
  parent : g.parent = f.parent

theorem remove_gone {f : Fn} {x : Nat} {v : Val} (hf : Ok f) (hx : InBody f x) (hv : LiveVal f v) (hne : v ≠ .insn x) :
    ∃ g, erase (replaceExcept f x v x) x = .ok g ∧ Gone f x v g := by
  obtain ⟨h, hX⟩ := replaceExcept_spec (f := f) (x := x) (e := x) hne
  obtain ⟨h1, h2⟩ := replaceExcept_fine hf hx hv hne
  have hg : ∃ g, erase (replaceExcept f x v x) x = .ok g := by
    unfold erase
    rw [if_neg]
    · exact ⟨_, rfl⟩
    · rw [hX]; simp
  obtain ⟨g, hg⟩ := hg
  have hx' : InBody (replaceExcept f x v x) x := by
    unfold InBody; rw [h.allBbs, h.body]; exact hx
  obtain ⟨_, hs, _⟩ := erase_spec hg
  refine ⟨g, hg, ⟨erase_ok h1 hx' hg, fun b => ?_, fun b z hz hzx => ?_, fun z hz hzx => by rw [hs.insn]; exact h2 z hz hzx, fun z => ?_, hs.allBbs.trans h.allBbs, hs.entry.trans h.entry,
    hs.args.trans h.args, hs.sp.trans h.sp, hs.succs.trans h.succs, hs.preds.trans h.preds, hs.parent.trans h.parent⟩⟩
  · rw [erase_filter h1 hx' hg, h.body]
  · rw [hs.insn]
    refine h2 z ?_ hzx
    refine .inr (.inr ⟨b, Classical.byContradiction fun hn => ?_, hz⟩)
    rw [hf.only b hn] at hz; cases hz
  · rw [hs.insn]
    show ((replaceExcept f x v x).insn z).op = _
    rcases Classical.em (z ∈ f.users x ∧ z ≠ x) with hs | hs
    · rw [h.insnIn z hs]; rfl
    · rw [h.insnOut z hs]

variable {f g : Fn} {x bx : Nat} {v : Val}

theorem Gone.edge (G : Gone f x v g) (hx : (f.insn x).op = .phi) {a b : Nat} : Edge g a b ↔ Edge f a b := by
  constructor
  · intro h
    cases h with
    | ja z hz h1 h2 =>
      rw [G.body, List.mem_filter] at hz
      rw [G.insn a z hz.1 (by simpa using hz.2)] at h1 h2
      exact .ja z hz.1 h1 h2
    | cond z hz h1 h2 =>
      rw [G.body, List.mem_filter] at hz
      rw [G.insn a z hz.1 (by simpa using hz.2)] at h1 h2
      exact .cond z hz.1 h1 h2
    | fall h => rw [G.succs] at h; exact .fall h
  · intro h
    have mem : ∀ z, z ∈ f.body a → (f.insn z).op ≠ .phi → z ≠ x ∧ z ∈ g.body a := fun z hz hp => by
      have : z ≠ x := by rintro rfl; exact hp hx
      exact ⟨this, by rw [G.body, List.mem_filter]; exact ⟨hz, by simpa using this⟩⟩
    cases h with
    | ja z hz h1 h2 =>
      obtain ⟨e1, e2⟩ := mem z hz (by rw [h1]; simp)
      exact .ja z e2 (by rw [G.insn a z hz e1]; exact h1) (by rw [G.insn a z hz e1]; exact h2)
    | cond z hz h1 h2 =>
      obtain ⟨e1, e2⟩ := mem z hz (by intro e; rw [e] at h1; cases h1)
      exact .cond z e2 (by rw [G.insn a z hz e1]; exact h1) (by rw [G.insn a z hz e1]; exact h2)
    | fall h => exact .fall (by rw [G.succs]; exact h)

theorem Gone.walk (G : Gone f x v g) (hx : (f.insn x).op = .phi) {h : List Nat} : Walk g h ↔ Walk f h := by
  constructor
  · intro h
    induction h with
    | entry => rw [G.entry]; exact .entry
    | step a b h _ he ih => exact .step a b h ih ((G.edge hx).1 he)
  · intro h
    induction h with
    | entry => rw [← G.entry]; exact .entry
    | step a b h _ he ih => exact .step a b h ih ((G.edge hx).2 he)

theorem Gone.dom (G : Gone f x v g) (hx : (f.insn x).op = .phi) {a b : Nat} : Dom g a b ↔ Dom f a b := by
  unfold Dom
  exact forall_congr' fun h => by rw [G.walk hx]

theorem Gone.inBody (G : Gone f x v g) {y : Nat} : InBody g y → InBody f y ∧ y ≠ x := by
  rintro ⟨b, hb, hm⟩
  rw [G.body, List.mem_filter] at hm
  exact ⟨⟨b, by rw [← G.allBbs]; exact hb, hm.1⟩, by simpa using hm.2⟩

/-- The block of the replacement is on every way to the block of the phi. -/
theorem dom_before (T : Triv f x bx v) {y : Nat} (hv : v = .insn y) (hy : InBody f y) : Dom f (f.parent y) bx :=
  fun h hw => by simp [T.before hv hy h.length h (Nat.le_refl _) hw]

theorem Gone.ssa (T : Triv f x bx v) (G : Gone f x v g) : Ssa g := by
  have hmem : ∀ b z, z ∈ g.body b → z ∈ f.body b ∧ z ≠ x := fun b z hz => by
    rw [G.body, List.mem_filter] at hz
    exact ⟨hz.1, by simpa using hz.2⟩
  have hsub : ∀ (w : Val) (y : Nat), sub x v w = .insn y → w = .insn y ∨ (w = .insn x ∧ v = .insn y) := fun w y h => by
    unfold sub at h
    split at h
    · rename_i e; exact .inr ⟨e, h⟩
    · exact .inl h
  refine ⟨?_, ?_, ?_, ?_, ?_⟩
  · intro b z hz hp y hy hr
    obtain ⟨h1, h2⟩ := hmem b z hz
    obtain ⟨hy1, hy2⟩ := G.inBody hy
    rw [G.dom T.op, G.parent]
    rw [G.op] at hp
    rw [G.insn b z h1 h2, refs_eq, operands_mapOps, List.count_pos_iff, List.mem_map] at hr
    obtain ⟨w, hw, e⟩ := hr
    rcases hsub w y e with rfl | ⟨rfl, e'⟩
    · exact T.ssa.uses b z h1 hp y hy1 (by rw [refs_eq, List.count_pos_iff]; exact hw)
    · have := T.ssa.uses b z h1 hp x T.inBody (by rw [refs_eq, List.count_pos_iff]; exact hw)
      rw [T.parent] at this
      exact (dom_before T e' hy1).trans this
  · intro b z hz hp p y hm hy
    obtain ⟨h1, h2⟩ := hmem b z hz
    obtain ⟨hy1, hy2⟩ := G.inBody hy
    rw [G.dom T.op, G.parent]
    rw [G.op] at hp
    rw [G.insn b z h1 h2] at hm
    unfold mapOps at hm
    dsimp only at hm
    rw [if_pos hp, List.mem_map] at hm
    obtain ⟨⟨p', w⟩, hw, e⟩ := hm
    simp only [Prod.mk.injEq] at e
    obtain ⟨rfl, e⟩ := e
    rcases hsub w y e with rfl | ⟨rfl, e'⟩
    · exact T.ssa.phiUses b z h1 hp p' y hw hy1
    · have := T.ssa.phiUses b z h1 hp p' x hw T.inBody
      rw [T.parent] at this
      exact (dom_before T e' hy1).trans this
  · intro b z hz hp p h hw he
    obtain ⟨h1, h2⟩ := hmem b z hz
    rw [G.op] at hp
    obtain ⟨w, hm⟩ := T.ssa.phiAll b z h1 hp p h ((G.walk T.op).1 hw) ((G.edge T.op).1 he)
    refine ⟨sub x v w, ?_⟩
    rw [G.insn b z h1 h2]
    unfold mapOps
    dsimp only
    rw [if_pos hp, List.mem_map]
    exact ⟨(p, w), hm, rfl⟩
  · intro z hz
    rw [G.entry] at hz
    rw [G.op]
    exact T.ssa.entry z (hmem _ z hz).1
  · intro b z hz ho a hh
    obtain ⟨h1, h2⟩ := hmem b z hz
    rw [G.op] at ho ⊢
    rw [G.insn b z h1 h2] at hh
    unfold mapOps at hh
    dsimp only at hh
    rw [List.head?_map] at hh
    cases e : (f.insn z).vals.head? with
    | none => rw [e] at hh; cases hh
    | some w =>
      rw [e] at hh
      simp only [Option.map_some, Option.some.injEq] at hh
      rcases hsub w a hh with rfl | ⟨rfl, _⟩
      · exact T.ssa.vars b z h1 ho a e
      · have := T.ssa.vars b z h1 ho x e
        rw [T.op] at this; cases this

/-! ## The loop -/

theorem scan_mem (x : Nat) : ∀ (l : List (Nat × Val)) (s : Option Val) (v : Val), scan x s l = some (some v) → s = some v ∨ ∃ p, (p, v) ∈ l
  | [], s, v, h => by
    simp only [scan, Option.some.injEq] at h
    exact .inl h
  | (p, w) :: l, s, v, h => by
    have key : ∀ (h' : (if s.isSome then none else scan x (some w) l) = some (some v)), s = some v ∨ ∃ q, (q, v) ∈ (p, w) :: l := by
      intro h'
      cases s with
      | some v => simp at h'
      | none =>
        simp only [Option.isSome_none, Bool.false_eq_true, if_false] at h'
        rcases scan_mem x l _ v h' with e | ⟨q, hq⟩
        · simp only [Option.some.injEq] at e
          exact .inr ⟨p, by rw [e]; simp⟩
        · exact .inr ⟨q, by simp [hq]⟩
    cases w with
    | const => exact key h
    | undef => exact key h
    | insn y =>
      simp only [scan] at h
      split at h
      · rcases scan_mem x l _ v h with e | ⟨q, hq⟩
        · exact .inl e
        · exact .inr ⟨q, by simp [hq]⟩
      · exact key h

/-- A phi with itself as only operand cannot be reached. -/
theorem self_none (hf : Ok f) (hs : Ssa f) (hb : bx ∈ f.allBbs) (hx : x ∈ f.body bx) (hp : (f.insn x).op = .phi)
    (ho : ∀ o ∈ (f.insn x).phi, o.2 = .insn x) : ∀ (n : Nat) (m : List Nat), m.length ≤ n → ¬ Walk f (bx :: m)
  | n, [], _, hw => by
    generalize hl : [bx] = l at hw
    cases hw with
    | entry => simp at hl; exact hs.entry x (by rw [← hl]; exact hx) hp
    | step => simp at hl
  | 0, p :: m, hn, hw => by simp at hn
  | n + 1, p :: m, hn, hw => by
    cases hw with
    | step _ _ _ hw he =>
      obtain ⟨w, hw1⟩ := hs.phiAll bx x hx hp p m hw he
      have := ho _ hw1
      dsimp only at this
      subst this
      have := hs.phiUses bx x hx hp p x hw1 ⟨bx, hb, hx⟩ m hw
      rw [hf.tidy.parent bx hb x hx] at this
      obtain ⟨m1, m2, e, _, hw'⟩ := hw.mem this
      have l1 := congrArg List.length e
      simp only [List.length_cons, List.length_append] at l1 hn
      exact self_none hf hs hb hx hp ho n m2 (by omega) hw'

theorem tryRemove_ok (hf : Ok f) (hs : Ssa f) (hb : bx ∈ f.allBbs) (hr : Reach f bx) (hx : x ∈ f.body bx) (hp : (f.insn x).op = .phi) :
    (tryRemove f x = .ok (false, f) ∧ scan x none (f.insn x).phi = none) ∨
    ∃ v g, tryRemove f x = .ok (true, g) ∧ Triv f x bx v ∧ Gone f x v g ∧ v ∈ operands (f.insn x) := by
  unfold tryRemove
  cases e : scan x none (f.insn x).phi with
  | none => exact .inl ⟨rfl, rfl⟩
  | some r =>
    cases r with
    | none =>
      obtain ⟨h, hw⟩ := hr
      refine absurd hw (self_none hf hs hb hx hp (fun o ho => ?_) h.length h (Nat.le_refl _))
      rcases (scan_only x _ _ _ e).2 o ho with h | h
      · cases h
      · exact h
    | some v =>
      have hne := scan_ne x _ _ _ e (by simp)
      have T : Triv f x bx v := ⟨hf, hs, hb, hx, hp, fun o ho => by
        rcases (scan_only x _ _ _ e).2 o ho with h | h
        · simp only [Option.some.injEq] at h; exact .inl h.symm
        · exact .inr h, hne⟩
      have hv : LiveVal f v := by
        rcases scan_mem x _ _ _ e with h | ⟨p, hm⟩
        · cases h
        · cases v with
          | const => trivial
          | undef => trivial
          | insn y =>
            refine hf.tidy.closed x y (.inr (.inr T.inBody)) ?_
            rw [refs_eq, List.count_pos_iff]
            unfold operands
            rw [if_pos hp]
            simp only [List.mem_append, List.mem_map]
            exact .inl (.inr ⟨(p, .insn y), hm, rfl⟩)
      obtain ⟨g, h1, h2⟩ := remove_gone hf T.inBody hv hne
      refine .inr ⟨v, g, ?_, T, h2, ?_⟩
      · dsimp only
        rw [h1]
      · rcases scan_mem x _ _ _ e with h | ⟨p, hm⟩
        · cases h
        · unfold operands
          rw [if_pos hp]
          simp only [List.mem_append, List.mem_map]
          exact .inl (.inr ⟨(p, v), hm, rfl⟩)

/-- In a block an instruction still only uses values in front of it: the replacement is defined in another block than the uses of the phi. -/
theorem Gone.ordered (T : Triv f x bx v) (G : Gone f x v g) (ho : Ordered f) : Ordered g := by
  intro b hb l z r e hp y hy
  obtain ⟨h0, hw0⟩ := hb
  have hw0 := (G.walk T.op).1 hw0
  have hz : z ∈ g.body b := by rw [e]; simp
  have hyb : y ∈ g.body b := by rw [e]; exact List.mem_append_right _ hy
  rw [G.op] at hp
  rw [G.body, List.mem_filter] at hz hyb
  have hzx : z ≠ x := by simpa using hz.2
  have hbb : b ∈ f.allBbs := Classical.byContradiction fun h => by rw [T.ok.only b h] at hz; cases hz.1
  rw [G.insn b z hz.1 hzx]
  apply Classical.byContradiction
  intro hr
  have hr : 0 < refs (mapOps (sub x v) (f.insn z)) y := Nat.pos_of_ne_zero hr
  rw [refs_eq, operands_mapOps, List.count_pos_iff, List.mem_map] at hr
  obtain ⟨w, hw, ew⟩ := hr
  -- position of `z` in `f`
  obtain ⟨l', r', e1, e2, e3⟩ : ∃ l' r', f.body b = l' ++ z :: r' ∧ r = r'.filter (fun z => !decide (z = x)) ∧ True := by
    rw [G.body] at e
    obtain ⟨l1, l2, e1, e2, e3⟩ := List.filter_eq_append_iff.1 e
    obtain ⟨l3, l4, e4, e5, e6, e7⟩ := List.filter_eq_cons_iff.1 e3
    exact ⟨l1 ++ l3, l4, by rw [e1, e4]; simp, e7.symm, trivial⟩
  by_cases hwx : w = .insn x
  · subst hwx
    have hd := T.ssa.uses b z hz.1 hp x T.inBody (by rw [refs_eq, List.count_pos_iff]; exact hw)
    rw [T.parent] at hd
    have hvy : v = .insn y := by simpa [sub] using ew
    have hyB : InBody f y := ⟨b, hbb, hyb.1⟩
    have hyp : f.parent y = b := T.ok.tidy.parent b hbb y hyb.1
    -- the block of `y` is strictly before the block of the phi, which is before `b`
    have hno : ∀ (n : Nat) (m : List Nat), m.length ≤ n → ¬ Walk f (bx :: m) := by
      intro n
      induction n with
      | zero =>
        intro m hm hw'
        have := T.before hvy hyB m.length m (Nat.le_refl _) hw'
        rw [List.length_eq_zero_iff.1 (Nat.le_zero.1 hm)] at this
        cases this
      | succ n ih =>
        intro m hm hw'
        have h1 := T.before hvy hyB m.length m (Nat.le_refl _) hw'
        rw [hyp] at h1
        obtain ⟨m1, m2, e4, _, hw2⟩ := hw'.mem (List.mem_cons_of_mem _ h1)
        have h2 := hd m2 hw2
        obtain ⟨m3, m4, e5, _, hw3⟩ := hw2.mem h2
        have l1 := congrArg List.length e4
        have l2 := congrArg List.length e5
        simp only [List.length_cons, List.length_append] at l1 l2
        have hm1 : m1 ≠ [] ∨ (m1 = [] ∧ bx = b ∧ m = m2) := by
          cases m1 with
          | nil => right; simp at e4; exact ⟨rfl, e4.1, e4.2⟩
          | cons a as => left; simp
        rcases hm1 with hm1 | ⟨_, hb, hm2⟩
        · have := List.length_pos_iff.2 hm1
          exact ih m4 (by omega) hw3
        · subst hm2
          obtain ⟨m5, m6, e6, _, hw6⟩ := (show Walk f m from by
            cases hw2 with
            | entry => cases h1
            | step _ _ _ hw2 _ => exact hw2).mem h1
          have l3 := congrArg List.length e6
          simp only [List.length_cons, List.length_append] at l3
          rw [← hb] at hw6
          exact ih m6 (by omega) hw6
    obtain ⟨m1, m2, _, _, hw2⟩ := hw0.mem (hd h0 hw0)
    exact hno m2.length m2 (Nat.le_refl _) hw2
  · have ew : w = .insn y := by simpa [sub, hwx] using ew
    subst ew
    have := ho b ⟨h0, hw0⟩ l' z r' e1 hp y (by
      rcases List.mem_cons.1 hy with rfl | hy
      · simp
      · rw [e2, List.mem_filter] at hy
        exact List.mem_cons_of_mem _ hy.1)
    rw [refs_eq, List.count_eq_zero] at this
    exact this hw

/-- Operands of `g` are those of `f` at the same place, or operands of phis of `f`. -/
def Resub (f g : Fn) : Prop := ∀ x, Live g x → ∃ φ : Val → Val, g.insn x = mapOps φ (f.insn x) ∧
  ∀ v, φ v = v ∨ ∃ z, InBody f z ∧ (f.insn z).op = .phi ∧ φ v ∈ operands (f.insn z)

theorem Resub.refl (f : Fn) : Resub f f := fun x _ => ⟨id, (mapOps_id fun _ _ => rfl).symm, fun _ => .inl rfl⟩

theorem Resub.trans {f g k : Fn} (h1 : Resub f g) (h2 : Resub g k) (hb : ∀ x, Live k x → Live g x) (ho : ∀ x, InBody g x → InBody f x) : Resub f k := by
  intro x hx
  obtain ⟨φ, e1, a1⟩ := h2 x hx
  obtain ⟨ψ, e2, a2⟩ := h1 x (hb x hx)
  refine ⟨fun v => φ (ψ v), by rw [e1, e2, mapOps_comp], fun v => ?_⟩
  dsimp only
  rcases a1 (ψ v) with e | ⟨z, hz, hp, hm⟩
  · rw [e]; exact a2 v
  · obtain ⟨χ, e3, a3⟩ := h1 z (.inr (.inr hz))
    rw [e3, mapOps_op] at hp
    rw [e3, operands_mapOps, List.mem_map] at hm
    obtain ⟨w, hw, e⟩ := hm
    rw [← e]
    rcases a3 w with e' | h
    · rw [e']; exact .inr ⟨z, ho z hz, hp, hw⟩
    · exact .inr h

/-- `w` is `v` or an operand of a phi, of a phi that is an operand of it, and so on, starting with `v`. -/
inductive Via (f : Fn) : Val → Val → Prop
  | refl (v : Val) : Via f v v
  | step {z : Nat} {u w : Val} : InBody f z → (f.insn z).op = .phi → u ∈ operands (f.insn z) → Via f u w → Via f (.insn z) w

theorem Via.trans {u v w : Val} (h : Via f u v) : Via f v w → Via f u w := by
  induction h with
  | refl _ => exact id
  | step h1 h2 h3 _ ih => exact fun h => .step h1 h2 h3 (ih h)

/-- Every operand is replaced by what it stands for. -/
def Traced (f g : Fn) : Prop := ∀ x, InBody g x → ∃ φ : Val → Val, g.insn x = mapOps φ (f.insn x) ∧ ∀ v, Via f v (φ v)

theorem Via.back {v w : Val} (h : Via g v w) (ht : Traced f g) (ho : ∀ x, InBody g x → InBody f x) : Via f v w := by
  induction h with
  | refl v => exact .refl v
  | step h1 h2 h3 _ ih =>
    obtain ⟨χ, e, a⟩ := ht _ h1
    rw [e, mapOps_op] at h2
    rw [e, operands_mapOps, List.mem_map] at h3
    obtain ⟨u, hu, e'⟩ := h3
    exact .step (ho _ h1) h2 hu ((e' ▸ a u).trans ih)

theorem Traced.trans {k : Fn} (h1 : Traced f g) (h2 : Traced g k) (hb : ∀ x, InBody k x → InBody g x) (ho : ∀ x, InBody g x → InBody f x) : Traced f k := by
  intro x hx
  obtain ⟨φ, e1, a1⟩ := h2 x hx
  obtain ⟨ψ, e2, a2⟩ := h1 x (hb x hx)
  exact ⟨fun v => φ (ψ v), by rw [e1, e2, mapOps_comp], fun v => (a2 v).trans ((a1 (ψ v)).back h1 ho)⟩

/-- `g` is `f` without some phis. -/
structure Pruned (rs : List Nat) (f g : Fn) : Prop where
  ok : Ok g
  ssa : Ssa g
  ordered : Ordered f → Ordered g
  args : g.args = f.args
  sp : g.sp = f.sp
  insn : Resub f g
  op : ∀ z, (g.insn z).op = (f.insn z).op
  allBbs : g.allBbs = f.allBbs
  entry : g.entry = f.entry
  succs : g.succs = f.succs
  preds : g.preds = f.preds
  walk : ∀ h, Walk g h ↔ Walk f h
  body : ∃ D : Nat → Bool, (∀ b, g.body b = (f.body b).filter (fun x => !D x)) ∧
    ∀ x, D x = true → (f.insn x).op = .phi ∧ ∃ b ∈ rs, x ∈ f.body b
  pres : ∀ W σ, Preserves W f g σ
  back : ∀ W σ, Mirrors W f g σ
  traced : Traced f g

theorem Pruned.refl {rs : List Nat} (h : Ok f) (hs : Ssa f) : Pruned rs f f :=
  ⟨h, hs, id, rfl, rfl, .refl f, fun _ => rfl, rfl, rfl, rfl, rfl, fun _ => Iff.rfl,
    ⟨fun _ => false, fun b => (List.filter_eq_self.2 (fun _ _ => rfl)).symm, fun x hx => by cases hx⟩, fun W σ => .refl W f σ, fun W σ m b z r τ' e _ => .inr ⟨m, r, τ', e, rfl⟩,
    fun x _ => ⟨id, (mapOps_id fun _ _ => rfl).symm, .refl⟩⟩

theorem Pruned.trans {rs : List Nat} {k : Fn} (h1 : Pruned rs f g) (h2 : Pruned rs g k) : Pruned rs f k := by
  obtain ⟨D, hD, hD'⟩ := h1.body
  obtain ⟨E, hE, hE'⟩ := h2.body
  have sub1 : ∀ x, InBody g x → InBody f x := fun x ⟨b, hb, hx⟩ => ⟨b, by rw [← h1.allBbs]; exact hb, by rw [hD, List.mem_filter] at hx; exact hx.1⟩
  have sub2 : ∀ x, InBody k x → InBody g x := fun x ⟨b, hb, hx⟩ => ⟨b, by rw [← h2.allBbs]; exact hb, by rw [hE, List.mem_filter] at hx; exact hx.1⟩
  refine ⟨h2.ok, h2.ssa, fun h => h2.ordered (h1.ordered h), h2.args.trans h1.args, h2.sp.trans h1.sp, h1.insn.trans h2.insn (fun x hx => hx.imp (fun e => by rw [e, h2.sp]) (Or.imp (fun e => by rw [← h2.args]; exact e) (sub2 x))) sub1,
    fun z => (h2.op z).trans (h1.op z), h2.allBbs.trans h1.allBbs, h2.entry.trans h1.entry,
    h2.succs.trans h1.succs, h2.preds.trans h1.preds, fun h => (h2.walk h).trans (h1.walk h),
    ⟨fun x => D x || E x, fun b => ?_, fun x hx => ?_⟩, fun W σ => (h1.pres W σ).trans (h2.pres W σ), fun W σ => .trans (h1.pres W σ) (h1.back W σ) (h2.back W σ) h2.op,
    h1.traced.trans h2.traced sub2 sub1⟩
  · rw [hE, hD, List.filter_filter]
    congr 1
    funext x
    dsimp only
    cases D x <;> cases E x <;> rfl
  · rw [Bool.or_eq_true] at hx
    rcases hx with hx | hx
    · exact hD' x hx
    · obtain ⟨e1, b, hb, hm⟩ := hE' x hx
      rw [h1.op] at e1
      rw [hD, List.mem_filter] at hm
      exact ⟨e1, b, hb, hm.1⟩

theorem pruned_gone {rs : List Nat} (T : Triv f x bx v) (hb : bx ∈ rs) (G : Gone f x v g) (hv : v ∈ operands (f.insn x)) : Pruned rs f g := by
  refine ⟨G.ok, G.ssa T, G.ordered T, G.args, G.sp, fun z hz => ⟨sub x v, ?_, fun w => ?_⟩, G.op, G.allBbs, G.entry, G.succs, G.preds, fun h => G.walk T.op,
    ⟨fun y => decide (y = x), G.body, fun y hy => ?_⟩, fun W σ => T.preserves G.body G.entry G.succs G.insn σ, fun W σ => T.mirrors G.body G.entry G.succs G.insn σ,
    fun z ⟨b, _, hz⟩ => ⟨sub x v, ?_, fun w => ?_⟩⟩
  · obtain ⟨c, hc, hcx⟩ := T.inBody
    rcases hz with e | e | ⟨b, hb, hz⟩
    · rw [G.sp] at e
      exact G.live z (.inl e) fun e' => (T.ok.tidy.fixed c hc x hcx).1 (e' ▸ e)
    · rw [G.args] at e
      exact G.live z (.inr (.inl e)) fun e' => (T.ok.tidy.fixed c hc x hcx).2 (e' ▸ e)
    · rw [G.body, List.mem_filter] at hz
      exact G.insn b z hz.1 (by simpa using hz.2)
  · unfold sub
    split
    · exact .inr ⟨x, T.inBody, T.op, hv⟩
    · exact .inl rfl
  · have : y = x := by simpa using hy
    subst this
    exact ⟨T.op, bx, hb, T.mem⟩
  · rw [G.body, List.mem_filter] at hz
    exact G.insn b z hz.1 (by simpa using hz.2)
  · unfold sub
    split
    · rename_i e
      rw [e]; exact .step T.inBody T.op hv (.refl v)
    · exact .refl w

theorem Pruned.le {rs : List Nat} (h : Pruned rs f g) (b : Nat) : (g.body b).length ≤ (f.body b).length := by
  obtain ⟨D, hD, _⟩ := h.body
  rw [hD]; exact List.length_filter_le ..

theorem Gone.lt (T : Triv f x bx v) (G : Gone f x v g) : (g.body bx).length < (f.body bx).length := by
  rw [G.body]
  have := List.length_filter_le (fun y => !decide (y = x)) (f.body bx)
  rcases Nat.lt_or_eq_of_le this with h1 | h1
  · exact h1
  · have := List.length_filter_eq_length_iff.1 h1 x T.mem
    simp at this

/-- What the loops need. -/
structure Inv (rs : List Nat) (f : Fn) : Prop where
  ok : Ok f
  ssa : Ssa f
  rs : ∀ b ∈ rs, b ∈ f.allBbs ∧ Reach f b

theorem Pruned.inv {rs : List Nat} (h : Pruned rs f g) (hi : Inv rs f) : Inv rs g :=
  ⟨h.ok, h.ssa, fun b hb => by
    obtain ⟨h1, k, h2⟩ := hi.rs b hb
    exact ⟨by rw [h.allBbs]; exact h1, k, (h.walk _).2 h2⟩⟩

/-- The phi is not one the function looks for. -/
def Done (f : Fn) (x : Nat) : Prop := (f.insn x).op = .phi → scan x none (f.insn x).phi = none

open Verif.Dead (total total_le total_lt)

theorem sweep_ok {rs : List Nat} {b : Nat} (hb : b ∈ rs) : ∀ (xs : List Nat) (c : Bool) (f : Fn), Inv rs f →
    xs.Nodup → (∀ x ∈ xs, x ∈ f.body b) →
    ∃ c' g, sweep xs (c, f) = .ok (c', g) ∧ Pruned rs f g ∧ (c' = true → c = true ∨ total g rs < total f rs) ∧
      (c = true → c' = true) ∧ (c' = false → g = f ∧ ∀ x ∈ xs, Done f x)
  | [], c, f, hi, _, _ => ⟨c, f, rfl, .refl hi.ok hi.ssa, fun h => .inl h, id, fun h => ⟨rfl, by simp⟩⟩
  | x :: xs, c, f, hi, hn, hm => by
    have hn' := List.nodup_cons.1 hn
    simp only [sweep]
    by_cases hp : (f.insn x).op = .phi
    · rw [if_pos hp]
      rcases tryRemove_ok hi.ok hi.ssa (hi.rs b hb).1 (hi.rs b hb).2 (hm x (by simp)) hp with ⟨e1, e2⟩ | ⟨v, f1, e1, T, G, hv⟩
      · rw [e1]
        obtain ⟨c', g, h1, h2, h3, h4, h5⟩ := sweep_ok hb xs c f hi hn'.2 (fun y hy => hm y (by simp [hy]))
        refine ⟨c', g, by simpa using h1, h2, h3, h4, fun h => ⟨(h5 h).1, fun y hy => ?_⟩⟩
        rcases List.mem_cons.1 hy with rfl | hy
        · exact fun _ => e2
        · exact (h5 h).2 y hy
      · rw [e1]
        have hc := pruned_gone T hb G hv
        have hlt := total_lt hc.le (G.lt T) rs hb
        obtain ⟨c', g, h1, h2, h3, h4, h5⟩ := sweep_ok hb xs true f1 (hc.inv hi) hn'.2 (fun y hy => by
          rw [G.body, List.mem_filter]
          refine ⟨hm y (by simp [hy]), ?_⟩
          simp only [Bool.not_eq_true', decide_eq_false_iff_not]
          rintro rfl; exact hn'.1 hy)
        refine ⟨c', g, by simpa using h1, hc.trans h2, fun _ => .inr ?_, fun _ => h4 rfl, fun h => ?_⟩
        · have := total_le h2.le rs; omega
        · rw [h4 rfl] at h; cases h
    · rw [if_neg hp]
      obtain ⟨c', g, h1, h2, h3, h4, h5⟩ := sweep_ok hb xs c f hi hn'.2 (fun y hy => hm y (by simp [hy]))
      refine ⟨c', g, h1, h2, h3, h4, fun h => ⟨(h5 h).1, fun y hy => ?_⟩⟩
      rcases List.mem_cons.1 hy with rfl | hy
      · exact fun h => absurd h hp
      · exact (h5 h).2 y hy

theorem sweepAll_ok {rs : List Nat} : ∀ (bs : List Nat) (c : Bool) (f : Fn), (∀ b ∈ bs, b ∈ rs) → Inv rs f →
    ∃ c' g, sweepAll bs (c, f) = .ok (c', g) ∧ Pruned rs f g ∧ (c' = true → c = true ∨ total g rs < total f rs) ∧
      (c = true → c' = true) ∧ (c' = false → g = f ∧ ∀ b ∈ bs, ∀ x ∈ f.body b, Done f x)
  | [], c, f, _, hi => ⟨c, f, rfl, .refl hi.ok hi.ssa, fun h => .inl h, id, fun h => ⟨rfl, by simp⟩⟩
  | b :: bs, c, f, hbs, hi => by
    have hb := hbs b (by simp)
    obtain ⟨c1, f1, h1, h2, h3, h4, h5⟩ := sweep_ok hb (f.body b) c f hi (hi.ok.tidy.nodup b (hi.rs b hb).1) (fun x hx => hx)
    obtain ⟨c', g, k1, k2, k3, k4, k5⟩ := sweepAll_ok bs c1 f1 (fun b hb => hbs b (by simp [hb])) (h2.inv hi)
    refine ⟨c', g, by simp only [sweepAll, h1]; exact k1, h2.trans k2, fun h => ?_, fun h => k4 (h4 h), fun h => ?_⟩
    · have l1 := total_le k2.le rs
      have l2 := total_le h2.le rs
      rcases k3 h with e | e
      · rcases h3 e with e | e
        · exact .inl e
        · exact .inr (by omega)
      · exact .inr (by omega)
    · obtain ⟨e1, e2⟩ := k5 h
      have hc1 : c1 = false := by
        cases hc : c1 with
        | false => rfl
        | true => rw [k4 hc] at h; cases h
      obtain ⟨e3, e4⟩ := h5 hc1
      subst e3
      refine ⟨e1, fun d hd => ?_⟩
      rcases List.mem_cons.1 hd with rfl | hd
      · exact e4
      · exact e2 d hd

theorem removeTrivial_ok {rs : List Nat} : ∀ (k : Nat) (f : Fn), Inv rs f → total f rs < k →
    ∃ g, removeTrivial rs k f = .ok g ∧ Pruned rs f g ∧ ∀ b ∈ rs, ∀ x ∈ g.body b, Done g x
  | 0, f, _, h => by omega
  | k + 1, f, hi, h => by
    obtain ⟨c, g, h1, h2, h3, _, h5⟩ := sweepAll_ok rs false f (fun b hb => hb) hi
    simp only [removeTrivial, h1]
    cases c with
    | false =>
      obtain ⟨rfl, e⟩ := h5 rfl
      exact ⟨g, rfl, .refl hi.ok hi.ssa, e⟩
    | true =>
      have hlt : total g rs < total f rs := by
        rcases h3 rfl with e | e
        · cases e
        · exact e
      obtain ⟨g', k1, k2, k3⟩ := removeTrivial_ok k g (h2.inv hi) (by omega)
      exact ⟨g', k1, h2.trans k2, k3⟩

theorem removeTrivial_mono {rs : List Nat} : ∀ (k : Nat) (f g : Fn), removeTrivial rs k f = .ok g → ∀ k', k ≤ k' → removeTrivial rs k' f = .ok g
  | 0, f, g, h, _, _ => by cases h
  | k + 1, f, g, h, 0, hk => by omega
  | k + 1, f, g, h, k' + 1, hk => by
    simp only [removeTrivial] at h ⊢
    revert h
    cases sweepAll rs (false, f) with
    | ok s =>
      obtain ⟨c, f1⟩ := s
      cases c with
      | false => exact id
      | true => exact fun h => removeTrivial_mono k f1 g h k' (by omega)
    | err => exact id
    | crit => exact id
    | ub => exact id

end Verif.Phi
