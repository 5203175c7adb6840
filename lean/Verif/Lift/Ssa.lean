import Verif.Lift.Model
/-!
# Invariants of the SSA construction

`look s b r` is what `read_variable` finds at once.  For every block the finished instructions replay
(`Tr`) from a map of start values to the current map; every start value is the stack pointer, an
argument, the end value of the only predecessor, or a phi over the end values of the predecessors.
-/
namespace Verif.Lift
open Verif Verif.Bpf Verif.IR Verif.GenBB
set_option linter.unusedSimpArgs false
set_option linter.unusedVariables false

abbrev M := Nat → Option Val

def look (s : LSt) (b : Nat) : M := fun r =>
  if r = 10 then some (.insn 0)
  else if 11 ≤ r then none
  else match s.defs r b with
    | some v => some v
    | none => if b = 0 ∧ 1 ≤ r ∧ r ≤ 5 then some (.insn r) else none

/-- Write to the map; the stack pointer cannot be changed. -/
def wr (m : M) (d : Nat) (v : Val) : M := if d = 10 then m else upd m d (some v)

def wrO (m : M) (d : Option Nat) (v : Val) : M := match d with | none => m | some d => wr m d v

def rdOpd (m : M) : Opd → Option Val
  | .imm i => some (.const .plain (i.signExtend 64) .w32 .none)
  | .reg r => m r

def rdOpds (m : M) : List Opd → Option (List Val)
  | [] => some []
  | o :: os => do
    let v ← rdOpd m o
    let vs ← rdOpds m os
    some (v :: vs)

def rdAddr (m : M) (i : Insn) : Option Nat → Option Val
  | none => some i.addr
  | some r => m r

def dOk : Option Nat → Prop
  | none => True
  | some d => d < 11

/-- One action on a map. -/
inductive Tr1 (ins : Nat → Insn) : Act → M → List Nat → M → Prop
  | mov {d o m v} : rdOpd m o = some v → d < 11 → Tr1 ins (.mov d o) m [] (wr m d v)
  | emit {i a os d m av vs x} : rdAddr m i a = some av → rdOpds m os = some vs →
      ins x = { i with addr := av, vals := vs } → dOk d →
      Tr1 ins (.emit i a os d) m [x] (wrO m d (.insn x))

inductive Tr (ins : Nat → Insn) : List Act → M → List Nat → M → Prop
  | nil {m} : Tr ins [] m [] m
  | cons {a as m xs m1 ys m2} : Tr1 ins a m xs m1 → Tr ins as m1 ys m2 → Tr ins (a :: as) m (xs ++ ys) m2

theorem Tr.snoc {ins as a m xs m1 ys m2} (h : Tr ins as m xs m1) (h1 : Tr1 ins a m1 ys m2) :
    Tr ins (as ++ [a]) m (xs ++ ys) m2 := by
  induction h with
  | nil => simpa using Tr.cons h1 Tr.nil
  | cons h0 _ ih => rw [List.cons_append, List.append_assoc]; exact Tr.cons h0 (ih h1)

theorem Tr1.congr {ins ins' a m xs m1} (h : Tr1 ins a m xs m1) (he : ∀ x ∈ xs, ins' x = ins x) :
    Tr1 ins' a m xs m1 := by
  cases h with
  | mov h1 h2 => exact .mov h1 h2
  | emit h1 h2 h3 h4 => exact .emit h1 h2 (by rw [he _ (by simp)]; exact h3) h4

theorem Tr.congr {ins ins' as m xs m1} (h : Tr ins as m xs m1) (he : ∀ x ∈ xs, ins' x = ins x) :
    Tr ins' as m xs m1 := by
  induction h with
  | nil => exact .nil
  | cons h0 _ ih =>
    refine .cons (h0.congr fun x hx => he x (by simp [hx])) (ih fun x hx => he x (by simp [hx]))

theorem upd_same {α : Type} (f : Nat → α) (k : Nat) (v : α) : upd f k v k = v := by simp [upd]
theorem upd_ne {α : Type} (f : Nat → α) {k j : Nat} (v : α) (h : j ≠ k) : upd f k v j = f j := by simp [upd, h]

theorem wr_mono {m : M} {d r : Nat} {v : Val} (h : (wr m d v) r = none) : m r = none := by
  unfold wr at h
  split at h
  · exact h
  · by_cases hr : r = d
    · subst hr; rw [upd_same] at h; simp at h
    · rw [upd_ne _ _ hr] at h; exact h

theorem Tr1.ofNone {ins a m xs m1 r} (h : Tr1 ins a m xs m1) (hr : m1 r = none) : m r = none := by
  cases h with
  | mov h1 h2 => exact wr_mono hr
  | @emit i a os d m av vs x h1 h2 h3 h4 =>
    cases d with
    | none => exact hr
    | some d => exact wr_mono hr

theorem Tr.ofNone {ins as m xs m1 r} (h : Tr ins as m xs m1) (hr : m1 r = none) : m r = none := by
  induction h with
  | nil => exact hr
  | cons h0 _ ih => exact h0.ofNone (ih hr)

theorem rdOpd_upd {m : M} {r : Nat} {v w : Val} {o : Opd} (hm : m r = none) (h : rdOpd m o = some w) :
    rdOpd (upd m r (some v)) o = some w := by
  cases o with
  | imm i => exact h
  | reg k =>
    simp only [rdOpd] at h ⊢
    have : k ≠ r := by intro e; subst e; rw [hm] at h; simp at h
    rw [upd_ne _ _ this]; exact h

theorem rdOpds_cons {m : M} {o os ws} :
    rdOpds m (o :: os) = some ws ↔ ∃ v vs, rdOpd m o = some v ∧ rdOpds m os = some vs ∧ ws = v :: vs := by
  simp only [rdOpds]
  cases h : rdOpd m o with
  | none => simp
  | some v =>
    cases h2 : rdOpds m os with
    | none => simp
    | some vs => simp [eq_comm]

theorem rdOpds_upd {m : M} {r : Nat} {v : Val} {os : List Opd} {ws} (hm : m r = none) (h : rdOpds m os = some ws) :
    rdOpds (upd m r (some v)) os = some ws := by
  induction os generalizing ws with
  | nil => exact h
  | cons o os ih =>
    obtain ⟨w, vs, h1, h2, rfl⟩ := rdOpds_cons.1 h
    exact rdOpds_cons.2 ⟨w, vs, rdOpd_upd hm h1, ih h2, rfl⟩

theorem wr_upd {m : M} {d r : Nat} {v w : Val} (hr : r ≠ 10) (h : (wr m d w) r = none) :
    wr (upd m r (some v)) d w = upd (wr m d w) r (some v) := by
  unfold wr at h ⊢
  split
  · rfl
  · rename_i hd
    rw [if_neg hd] at h
    have hrd : r ≠ d := by intro e; subst e; rw [upd_same] at h; simp at h
    funext j
    simp only [upd]
    by_cases h1 : j = d <;> by_cases h2 : j = r <;> simp_all

/-- A register that is unknown at the end was not touched: it may be given any start value. -/
theorem Tr1.extend {ins a m xs m1 r v} (h : Tr1 ins a m xs m1) (hr : m1 r = none) (h10 : r ≠ 10) :
    Tr1 ins a (upd m r (some v)) xs (upd m1 r (some v)) := by
  have hm := h.ofNone hr
  cases h with
  | mov h1 h2 =>
    rw [← wr_upd h10 hr]
    exact .mov (rdOpd_upd hm h1) h2
  | @emit i a os d m av vs x h1 h2 h3 h4 =>
    have ha : rdAddr (upd m r (some v)) i a = some av := by
      cases a with
      | none => exact h1
      | some k =>
        simp only [rdAddr] at h1 ⊢
        have : k ≠ r := by intro e; subst e; rw [hm] at h1; simp at h1
        rw [upd_ne _ _ this]; exact h1
    cases d with
    | none => exact .emit (d := none) ha (rdOpds_upd hm h2) h3 h4
    | some d =>
      simp only [wrO] at hr ⊢
      rw [← wr_upd h10 hr]
      exact .emit (d := some d) ha (rdOpds_upd hm h2) h3 h4

theorem Tr.extend {ins as m xs m1 r v} (h : Tr ins as m xs m1) (hr : m1 r = none) (h10 : r ≠ 10) :
    Tr ins as (upd m r (some v)) xs (upd m1 r (some v)) := by
  induction h with
  | nil => exact .nil
  | cons h0 h1 ih => exact .cons (h0.extend (h1.ofNone hr) h10) (ih hr)

/-- Untouched registers keep their start value. -/
theorem Tr1.untouched {ins ins' a m m' xs xs' m1 m1'} {r : Nat} (h : Tr1 ins a m xs m1)
    (hr : m1 r = none) (h' : Tr1 ins' a m' xs' m1') : m1' r = m' r := by
  have key : ∀ {m m' : M} {d : Nat} {v w : Val}, (wr m d v) r = none → (wr m' d w) r = m' r := by
    intro m m' d v w h
    unfold wr at h ⊢
    split
    · rfl
    · rename_i hd
      rw [if_neg hd] at h
      have : r ≠ d := by intro e; subst e; rw [upd_same] at h; simp at h
      rw [upd_ne _ _ this]
  cases h with
  | mov h1 h2 => cases h' with | mov h1' h2' => exact key hr
  | @emit i a os d m av vs x h1 h2 h3 h4 =>
    cases h' with
    | emit h1' h2' h3' h4' =>
      cases d with
      | none => rfl
      | some d => exact key hr

theorem Tr.untouched {ins ins' as m m' xs xs' m1 m1'} {r : Nat} (h : Tr ins as m xs m1)
    (hr : m1 r = none) (h' : Tr ins' as m' xs' m1') : m1' r = m' r := by
  induction h generalizing m' xs' with
  | nil => cases h'; rfl
  | cons h0 h1 ih =>
    cases h' with
    | cons g0 g1 => rw [ih hr g1]; exact h0.untouched (h1.ofNone hr) g0

/-! ## The invariant -/

/-- Auxiliary data: actions done, start values, code and phis of every block. -/
structure Gh where
  acts : Nat → List Act
  start : Nat → M
  code : Nat → List Nat
  phis : Nat → List Nat
  preg : Nat → Nat

/-- The operands of the phi are the end values of the predecessors. -/
def Complete (C : List Blk) (s : LSt) (b r x : Nat) : Prop :=
  (s.insn x).phi.map Prod.fst = predsOf C b ∧
  ∀ o ∈ (s.insn x).phi, s.filled o.1 = true ∧ look s o.1 r = some o.2

/-- Why `v` is the value of `r` at the start of `b`. -/
inductive Just (C : List Blk) (Q : Nat → Prop) (g : Gh) (s : LSt) (b r : Nat) (v : Val) : Prop
  | sp : r = 10 → v = .insn 0 → Just C Q g s b r v
  | arg : b = 0 → 1 ≤ r → r ≤ 5 → v = .insn r → Just C Q g s b r v
  | copy (p : Nat) : b ≠ 0 → r < 10 → s.sealed b = true → predsOf C b = [p] → look s p r = some v → Just C Q g s b r v
  | phi (x : Nat) : b ≠ 0 → r < 10 → v = .insn x → x ∈ g.phis b → (s.insn x).op = .phi → g.preg x = r →
      ((predsOf C b).length ≠ 1 ∨ s.inc b r = some x) →
      (Q x ∨ (s.sealed b = false ∧ s.inc b r = some x ∧ (s.insn x).phi = []) ∨ Complete C s b r x) →
      Just C Q g s b r v

structure Inv (C : List Blk) (Q : Nat → Prop) (g : Gh) (s : LSt) : Prop where
  tr : ∀ b, Tr s.insn (g.acts b) (g.start b) (g.code b) (look s b)
  body : ∀ b, s.body b = g.phis b ++ g.code b
  just : ∀ b r v, g.start b r = some v → Just C Q g s b r v
  phiR : ∀ b x, x ∈ g.phis b → g.start b (g.preg x) = some (.insn x) ∧ (s.insn x).op = .phi
  rng : ∀ b x, x ∈ s.body b → 6 ≤ x ∧ x < s.next
  nodup : ∀ b, (s.body b).Nodup
  disj : ∀ b c x, x ∈ s.body b → x ∈ s.body c → b = c
  sealP : ∀ b p, s.sealed b = true → p ∈ predsOf C b → s.filled p = true
  incS : ∀ b r x, s.inc b r = some x → g.start b r = some (.insn x) ∧ x ∈ g.phis b ∧ g.preg x = r ∧ b ≠ 0 ∧ r < 10
  incE : ∀ b r x, s.sealed b = false → s.inc b r = some x → Q x ∨ (s.insn x).phi = []
  next6 : 6 ≤ s.next

/-- What reading register `r` may change; `Y` are instructions whose operands may change. -/
structure Ext (Y : Nat → Prop) (r : Nat) (g : Gh) (s : LSt) (g' : Gh) (s' : LSt) : Prop where
  acts : g'.acts = g.acts
  code : g'.code = g.code
  filled : s'.filled = s.filled
  sealed : s'.sealed = s.sealed
  look : ∀ b k v, look s b k = some v → look s' b k = some v
  lookO : ∀ b k, k ≠ r → Lift.look s' b k = Lift.look s b k
  start : ∀ b k v, g.start b k = some v → g'.start b k = some v
  startO : ∀ b k, k ≠ r → g'.start b k = g.start b k
  phis : ∀ b x, x ∈ g.phis b → x ∈ g'.phis b
  inc : ∀ b k x, s.inc b k = some x → s'.inc b k = some x
  incO : ∀ b k, k ≠ r ∨ s.sealed b = true → s'.inc b k = s.inc b k
  next : s.next ≤ s'.next
  insn : ∀ x, x < s.next → ¬ Y x → s'.insn x = s.insn x
  op : ∀ x, x < s.next → (s'.insn x).op = (s.insn x).op
  preg : ∀ x, x < s.next → g'.preg x = g.preg x

theorem Ext.refl (Y r g s) : Ext Y r g s g s :=
  ⟨rfl, rfl, rfl, rfl, fun _ _ _ h => h, fun _ _ _ => rfl, fun _ _ _ h => h, fun _ _ _ => rfl, fun _ _ h => h,
   fun _ _ _ h => h, fun _ _ _ => rfl, Nat.le_refl _, fun _ _ _ => rfl, fun _ _ => rfl, fun _ _ => rfl⟩

theorem Ext.trans {Y r g s g1 s1 g2 s2} (h : Ext Y r g s g1 s1) (h' : Ext Y r g1 s1 g2 s2) : Ext Y r g s g2 s2 where
  acts := h'.acts.trans h.acts
  code := h'.code.trans h.code
  filled := h'.filled.trans h.filled
  sealed := h'.sealed.trans h.sealed
  look := fun b k v hv => h'.look b k v (h.look b k v hv)
  lookO := fun b k hk => (h'.lookO b k hk).trans (h.lookO b k hk)
  start := fun b k v hv => h'.start b k v (h.start b k v hv)
  startO := fun b k hk => (h'.startO b k hk).trans (h.startO b k hk)
  phis := fun b x hx => h'.phis b x (h.phis b x hx)
  inc := fun b k x hx => h'.inc b k x (h.inc b k x hx)
  incO := fun b k hk => (h'.incO b k (by rw [h.sealed]; exact hk)).trans (h.incO b k hk)
  next := Nat.le_trans h.next h'.next
  insn := fun x hx hy => (h'.insn x (Nat.lt_of_lt_of_le hx h.next) hy).trans (h.insn x hx hy)
  op := fun x hx => (h'.op x (Nat.lt_of_lt_of_le hx h.next)).trans (h.op x hx)
  preg := fun x hx => (h'.preg x (Nat.lt_of_lt_of_le hx h.next)).trans (h.preg x hx)

theorem Ext.weaken {Y Y' r g s g1 s1} (h : Ext Y r g s g1 s1) (hy : ∀ x, x < s.next → Y x → Y' x) : Ext Y' r g s g1 s1 :=
  { h with insn := fun x hx hn => h.insn x hx (fun e => hn (hy x hx e)) }

/-! ## Basic facts about `look` -/

theorem look_write {s : LSt} {r b : Nat} {v : Val} (h11 : r < 11) (c k : Nat) :
    look (s.write r b v) c k = if c = b ∧ k = r ∧ r ≠ 10 then some v else look s c k := by
  unfold look LSt.write upd
  by_cases h1 : k = 10
  · subst h1
    simp only [if_pos]
    split
    · rename_i h; omega
    · rfl
  · rw [if_neg h1, if_neg h1]
    by_cases h2 : 11 ≤ k
    · rw [if_pos h2, if_pos h2, if_neg (by omega)]
    · rw [if_neg h2, if_neg h2]
      by_cases h3 : k = r
      · subst h3
        by_cases h4 : c = b
        · subst h4; simp [h1]
        · simp [h4]
      · simp [h3]

theorem look_congr {s s' : LSt} (h : s'.defs = s.defs) : look s' = look s := by
  unfold look; rw [h]

theorem look_write_upd {s : LSt} {r b : Nat} {v : Val} (h10 : r < 10) :
    look (s.write r b v) b = upd (look s b) r (some v) := by
  funext k
  rw [look_write (by omega)]
  unfold upd
  by_cases h : k = r
  · rw [if_pos ⟨rfl, h, by omega⟩, if_pos h]
  · rw [if_neg (by omega), if_neg h]

theorem look_write_ne {s : LSt} {r b c : Nat} {v : Val} (h11 : r < 11) (hc : c ≠ b) :
    look (s.write r b v) c = look s c := by
  funext k; rw [look_write h11, if_neg (by omega)]

theorem Inv.start_look {C Q g s} (h : Inv C Q g s) {b r} (hr : look s b r = none) : g.start b r = none :=
  (h.tr b).ofNone hr

theorem Inv.notCode {C Q g s} (h : Inv C Q g s) {b c x} (hx : x ∈ g.phis b) : x ∉ g.code c := by
  intro hc
  have h1 : x ∈ s.body b := by rw [h.body]; simp [hx]
  have h2 : x ∈ s.body c := by rw [h.body]; simp [hc]
  have := h.disj _ _ _ h1 h2
  subst this
  have hn := h.nodup b
  rw [h.body, List.nodup_append] at hn
  exact hn.2.2 x hx x hc rfl

/-- Writing again what is there. -/
theorem write_same {s : LSt} {r b : Nat} {v : Val} (h : s.defs r b = some v) : s.write r b v = s := by
  unfold LSt.write
  have : upd s.defs r (upd (s.defs r) b (some v)) = s.defs := by
    funext k j
    unfold upd
    by_cases h1 : k = r
    · subst h1; simp only [if_pos]
      by_cases h2 : j = b
      · subst h2; simp [h]
      · simp [h2]
    · simp [h1]
  rw [this]

theorem look_some {s : LSt} {b r : Nat} {v : Val} (hb : b ≠ 0) (hr : r < 10) : look s b r = some v ↔ s.defs r b = some v := by
  unfold look
  rw [if_neg (by omega), if_neg (by omega)]
  cases s.defs r b with
  | some w => rfl
  | none => simp [hb]

/-- Justifications survive as long as end values of filled blocks and complete phis do. -/
theorem Just.mono {C Q Q' g s g' s'} {b r v} (h : Just C Q g s b r v)
    (hsp : ∀ b p, s.sealed b = true → p ∈ predsOf C b → s.filled p = true)
    (hse : ∀ b, s.sealed b = true → s'.sealed b = true)
    (hsf : s'.sealed b = false ∨ s'.sealed b = s.sealed b)
    (hfi : ∀ b, s.filled b = true → s'.filled b = true)
    (hlook : ∀ p k v, s.filled p = true → look s p k = some v → look s' p k = some v)
    (hphi : ∀ x, x ∈ g.phis b → x ∈ g'.phis b)
    (hop : ∀ x, x ∈ g.phis b → (s'.insn x).op = (s.insn x).op)
    (hin : ∀ x, x ∈ g.phis b → (s'.insn x).phi = (s.insn x).phi ∨ Q' x)
    (hinc : ∀ x, s.inc b r = some x → s'.inc b r = some x)
    (hpi : ∀ x, x ∈ g.phis b → Q x → Q' x)
    (hpr : ∀ x, x ∈ g.phis b → g'.preg x = g.preg x) : Just C Q' g' s' b r v := by
  cases h with
  | sp h1 h2 => exact .sp h1 h2
  | arg h1 h2 h3 h4 => exact .arg h1 h2 h3 h4
  | copy p h1 h2 h3 h4 h5 =>
    exact .copy p h1 h2 (hse _ h3) h4 (hlook _ _ _ (hsp b p h3 (by simp [h4])) h5)
  | phi x h1 h2 h3 h4 h5 h0 h6 h7 =>
    refine .phi x h1 h2 h3 (hphi x h4) (by rw [hop x h4]; exact h5) (by rw [hpr x h4]; exact h0) (h6.imp id (hinc x)) ?_
    rcases h7 with h7 | ⟨h7, h8, h9⟩ | h7
    · exact .inl (hpi x h4 h7)
    · rcases hin x h4 with h | h
      · refine .inr (.inl ⟨?_, hinc x h8, by rw [h]; exact h9⟩)
        rcases hsf with e | e
        · exact e
        · rw [e]; exact h7
      · exact .inl h
    · rcases hin x h4 with h | h
      · refine .inr (.inr ⟨by rw [h]; exact h7.1, ?_⟩)
        intro o ho
        rw [h] at ho
        have := h7.2 o ho
        exact ⟨hfi _ this.1, hlook _ _ _ this.1 this.2⟩
      · exact .inl h

/-- Give register `r` of block `b` a start value. -/
def Gh.set (g : Gh) (b r : Nat) (v : Val) : Gh := { g with start := upd g.start b (upd (g.start b) r (some v)) }

theorem Gh.set_start (g : Gh) (b r : Nat) (v : Val) (c k : Nat) :
    (g.set b r v).start c k = if c = b ∧ k = r then some v else g.start c k := by
  simp only [Gh.set, upd]
  by_cases h1 : c = b
  · subst h1; by_cases h2 : k = r <;> simp [h2, upd]
  · simp [h1]

theorem Gh.set_keep {g : Gh} {b r : Nat} {v w : Val} {c k : Nat} (hn : g.start b r = none) (h : g.start c k = some w) :
    (g.set b r v).start c k = some w := by
  rw [Gh.set_start, if_neg]
  · exact h
  · rintro ⟨rfl, rfl⟩; rw [hn] at h; simp at h

/-- A new start value for a register that is not known at the end of the block. -/
theorem Inv.tr_set {C Q g s} (h : Inv C Q g s) {b r v} (hr : r < 10) (hn : look s b r = none) (c : Nat) :
    Tr s.insn (g.acts c) ((g.set b r v).start c) (g.code c) (look (s.write r b v) c) := by
  by_cases hc : c = b
  · subst hc
    simp only [Gh.set, upd_same]
    rw [look_write_upd hr]
    exact (h.tr c).extend hn (by omega)
  · simp only [Gh.set, upd_ne _ _ hc]
    rw [look_write_ne (by omega) hc]
    exact h.tr c

theorem look_mono_write {s : LSt} {r b v} (hr : r < 10) (hn : look s b r = none) (c k w) (hw : look s c k = some w) :
    look (s.write r b v) c k = some w := by
  rw [look_write (by omega)]
  split
  · rename_i e; rw [e.1, e.2.1, hn] at hw; simp at hw
  · exact hw

/-- Copying the end value of the only predecessor. -/
theorem Inv.copy {C Q g s} (h : Inv C Q g s) {b r p v} (hb : b ≠ 0) (hr : r < 10) (hs : s.sealed b = true)
    (hp : predsOf C b = [p]) (hv : look s p r = some v) (hn : look s b r = none) :
    Inv C Q (g.set b r v) (s.write r b v) ∧
    Ext (fun _ => False) r g s (g.set b r v) (s.write r b v) := by
  have hst := h.start_look hn
  have hmono := look_mono_write (v := v) hr hn
  refine ⟨⟨fun c => h.tr_set hr hn c, h.body, ?_, ?_, h.rng, h.nodup, h.disj, h.sealP, ?_, h.incE, h.next6⟩,
    ⟨rfl, rfl, rfl, rfl, hmono, ?_, fun c k w hw => Gh.set_keep hst hw, ?_, fun _ _ h => h, fun _ _ _ h => h,
     fun _ _ _ => rfl, Nat.le_refl _, fun _ _ _ => rfl, fun _ _ => rfl, fun _ _ => rfl⟩⟩
  · intro c k w hw
    rw [Gh.set_start] at hw
    split at hw
    · rename_i e
      obtain ⟨rfl, rfl⟩ := e
      cases hw
      exact .copy p hb hr hs hp (hmono _ _ _ hv)
    · exact (h.just c k w hw).mono h.sealP (fun _ e => e) (.inr rfl) (fun _ e => e)
        (fun p k v _ e => hmono p k v e) (fun _ e => e) (fun _ _ => rfl) (fun _ _ => .inl rfl)
        (fun _ e => e) (fun _ _ e => e) (fun _ _ => rfl)
  · intro c x hx
    obtain ⟨hk, ho⟩ := h.phiR c x hx
    exact ⟨Gh.set_keep hst hk, ho⟩
  · intro c k x hx
    have := h.incS c k x hx
    exact ⟨Gh.set_keep hst this.1, this.2⟩
  · intro c k hk
    rw [look_write (by omega), if_neg (by omega)]
  · intro c k hk
    rw [Gh.set_start, if_neg (by omega)]

/-- A new phi at the front of block `b`. -/
def newPhi (s : LSt) (r b : Nat) : LSt := (s.front b phi0).write r b (.insn s.next)

def newPhiInc (s : LSt) (r b : Nat) : LSt :=
  let s1 := s.front b phi0
  ({ s1 with inc := upd s1.inc b (upd (s1.inc b) r (some s.next)) }).write r b (.insn s.next)

def Gh.phi (g : Gh) (b r x : Nat) : Gh := { g.set b r (.insn x) with phis := upd g.phis b (x :: g.phis b), preg := upd g.preg x r }

theorem Inv.phi {C Q Q' g s s'} (h : Inv C Q g s) {b r} (hb : b ≠ 0) (hr : r < 10)
    (hn : look s b r = none) (hs' : s' = newPhi s r b ∨ s' = newPhiInc s r b)
    (hQ : ∀ x, x < s.next → Q x → Q' x)
    (hinc : (s' = newPhiInc s r b ∧ s.sealed b = false) ∨
      (s' = newPhi s r b ∧ (predsOf C b).length ≠ 1 ∧ Q' s.next)) :
    Inv C Q' (g.phi b r s.next) s' ∧ Ext (fun _ => False) r g s (g.phi b r s.next) s' := by
  have hst := h.start_look hn
  have hmono := look_mono_write (v := .insn s.next) hr hn
  -- the shape of `s'`
  have e1 : s'.insn = upd s.insn s.next phi0 := by rcases hs' with rfl | rfl <;> rfl
  have e2 : s'.body = upd s.body b (s.next :: s.body b) := by rcases hs' with rfl | rfl <;> rfl
  have e3 : look s' = look (s.write r b (.insn s.next)) := by
    apply look_congr; rcases hs' with rfl | rfl <;> rfl
  have e4 : s'.sealed = s.sealed := by rcases hs' with rfl | rfl <;> rfl
  have e5 : s'.filled = s.filled := by rcases hs' with rfl | rfl <;> rfl
  have e6 : s'.next = s.next + 1 := by rcases hs' with rfl | rfl <;> rfl
  have e7 : ∀ c k, s'.inc c k = s.inc c k ∨ (c = b ∧ k = r ∧ s'.inc c k = some s.next ∧ s.sealed b = false) := by
    intro c k
    rcases hinc with ⟨rfl, hse⟩ | ⟨rfl, _⟩
    · by_cases hc : c = b ∧ k = r
      · obtain ⟨rfl, rfl⟩ := hc
        right
        simp [newPhiInc, LSt.write, LSt.front, upd, hse]
      · left
        simp only [newPhiInc, LSt.write, LSt.front, upd]
        by_cases h1 : c = b
        · subst h1; rw [if_pos rfl]; exact upd_ne _ _ (fun e => hc ⟨rfl, e⟩)
        · simp [h1]
    · left; rfl
  have hinc0 : s.inc b r = none := by
    cases hi : s.inc b r with
    | none => rfl
    | some x => have := (h.incS _ _ _ hi).1; rw [hst] at this; simp at this
  have e8 : ∀ c k x, s.inc c k = some x → s'.inc c k = some x := by
    intro c k x hx
    rcases e7 c k with e | ⟨rfl, rfl, _⟩
    · rw [e]; exact hx
    · rw [hinc0] at hx; simp at hx
  have hnew : ∀ c, s.next ∉ s.body c := fun c hc => by have := h.rng c _ hc; omega
  have hins : ∀ x, x < s.next → s'.insn x = s.insn x := by
    intro x hx; rw [e1, upd_ne _ _ (by omega)]
  have hphilt : ∀ c x, x ∈ g.phis c → x < s.next := by
    intro c x hx; exact (h.rng c x (by rw [h.body]; simp [hx])).2
  have hbody' : ∀ c, (g.phi b r s.next).phis c ++ (g.phi b r s.next).code c = s'.body c := by
    intro c
    rw [e2]
    simp only [Gh.phi, Gh.set, upd]
    by_cases hc : c = b
    · subst hc; simp [h.body]
    · simp [hc, h.body]
  have hmem : ∀ c x, x ∈ s'.body c → (x = s.next ∧ c = b) ∨ x ∈ s.body c := by
    intro c x hx
    rw [e2] at hx
    simp only [upd] at hx
    split at hx
    · rename_i e; subst e
      rcases List.mem_cons.1 hx with e | e
      · exact .inl ⟨e, rfl⟩
      · exact .inr e
    · exact .inr hx
  refine ⟨⟨?_, fun c => (hbody' c).symm, ?_, ?_, ?_, ?_, ?_, ?_, ?_, ?_, by rw [e6]; have := h.next6; omega⟩,
    ⟨rfl, rfl, e5, e4, ?_, ?_, fun c k w hw => Gh.set_keep hst hw, ?_, ?_, e8, ?_, by rw [e6]; omega,
     fun x hx _ => hins x hx, fun x hx => by rw [hins x hx], fun x hx => upd_ne _ _ (by omega)⟩⟩
  · intro c
    have := h.tr_set (v := .insn s.next) hr hn c
    rw [e3]
    refine this.congr fun x hx => hins x ?_
    exact (h.rng c x (by rw [h.body]; simp [hx])).2
  · intro c k w hw
    change (g.set b r (.insn s.next)).start c k = some w at hw
    rw [Gh.set_start] at hw
    split at hw
    · rename_i e
      obtain ⟨rfl, rfl⟩ := e
      cases hw
      refine .phi s.next hb hr rfl (by simp [Gh.phi, upd]) (by rw [e1, upd_same]; rfl) (upd_same _ _ _) ?_ ?_
      · rcases hinc with ⟨rfl, hse⟩ | ⟨rfl, hp, hq⟩
        · exact .inr (by simp [newPhiInc, LSt.write, LSt.front, upd])
        · exact .inl hp
      · rcases hinc with ⟨rfl, hse⟩ | ⟨rfl, hp, hq⟩
        · exact .inr (.inl ⟨hse, by simp [newPhiInc, LSt.write, LSt.front, upd], by rw [e1, upd_same]; rfl⟩)
        · exact .inl hq
    · refine (h.just c k w hw).mono h.sealP (fun _ e => by rw [e4]; exact e) (.inr (by rw [e4])) (fun _ e => by rw [e5]; exact e)
        (fun p k v _ e => by rw [e3]; exact hmono p k v e) ?_ (fun x hx => by rw [hins x (hphilt _ _ hx)])
        (fun x hx => .inl (by rw [hins x (hphilt _ _ hx)])) (fun x => e8 c k x) (fun x hx => hQ x (hphilt _ _ hx))
        (fun x hx => upd_ne _ _ (by have := hphilt _ _ hx; omega))
      intro x hx
      simp only [Gh.phi, upd]
      split
      · rename_i e; subst e; exact List.mem_cons_of_mem _ hx
      · exact hx
  · intro c x hx
    have old : x ∈ g.phis c → (g.phi b r s.next).start c ((g.phi b r s.next).preg x) = some (.insn x) ∧ (s'.insn x).op = .phi := by
      intro e
      obtain ⟨hk, ho⟩ := h.phiR c x e
      have hlt := hphilt _ _ e
      have : (g.phi b r s.next).preg x = g.preg x := upd_ne _ _ (by omega)
      rw [this, hins x hlt]
      exact ⟨Gh.set_keep hst hk, ho⟩
    have hx' := hx
    simp only [Gh.phi, upd] at hx'
    split at hx'
    · rename_i e; subst e
      rcases List.mem_cons.1 hx' with e | e
      · subst e
        have : (g.phi c r s.next).preg s.next = r := upd_same _ _ _
        rw [this, e1, upd_same]
        refine ⟨?_, rfl⟩
        change (g.set c r (.insn s.next)).start c r = _
        rw [Gh.set_start, if_pos ⟨rfl, rfl⟩]
      · exact old e
    · exact old hx'
  · intro c x hx
    rw [e6]
    rcases hmem c x hx with ⟨rfl, _⟩ | hx
    · have := h.next6; omega
    · have := h.rng c x hx; omega
  · intro c
    rw [e2]
    simp only [upd]
    split
    · exact List.nodup_cons.2 ⟨hnew b, h.nodup b⟩
    · exact h.nodup c
  · intro c c' x hx hx'
    rcases hmem c x hx with ⟨e1, e2⟩ | hx1
    · rcases hmem c' x hx' with ⟨_, e3⟩ | hx2
      · rw [e2, e3]
      · rw [e1] at hx2; exact absurd hx2 (hnew _)
    · rcases hmem c' x hx' with ⟨e1, _⟩ | hx2
      · rw [e1] at hx1; exact absurd hx1 (hnew _)
      · exact h.disj _ _ _ hx1 hx2
  · intro c p hc hp; rw [e4] at hc; rw [e5]; exact h.sealP c p hc hp
  · intro c k x hx
    have hmono' : ∀ y, y ∈ g.phis c → y ∈ (g.phi b r s.next).phis c := by
      intro y hy
      simp only [Gh.phi, upd]
      split
      · rename_i e; subst e; exact List.mem_cons_of_mem _ hy
      · exact hy
    rcases e7 c k with e | ⟨rfl, rfl, e, _⟩
    · rw [e] at hx
      obtain ⟨a1, a2, a3, a4, a5⟩ := h.incS c k x hx
      refine ⟨Gh.set_keep hst a1, hmono' x a2, ?_, a4, a5⟩
      rw [← a3]; exact upd_ne _ _ (by have := hphilt _ _ a2; omega)
    · rw [e] at hx; cases hx
      refine ⟨?_, by simp [Gh.phi, upd], upd_same _ _ _, hb, hr⟩
      change (g.set c k (.insn s.next)).start c k = _
      rw [Gh.set_start, if_pos ⟨rfl, rfl⟩]
  · intro c k x hs hx
    rw [e4] at hs
    rcases e7 c k with e | ⟨rfl, rfl, e, _⟩
    · rw [e] at hx
      have hlt := hphilt _ _ (h.incS c k x hx).2.1
      rcases h.incE c k x hs hx with h1 | h1
      · exact .inl (hQ x hlt h1)
      · exact .inr (by rw [hins x hlt]; exact h1)
    · rw [e] at hx; cases hx
      exact .inr (by rw [e1, upd_same]; rfl)
  · intro c k v hv; rw [e3]; exact hmono c k v hv
  · intro c k hk
    rw [e3, look_write (by omega), if_neg (by omega)]
  · intro c k hk
    change (g.set b r (.insn s.next)).start c k = _
    rw [Gh.set_start, if_neg (by omega)]
  · intro c x hx
    simp only [Gh.phi, upd]
    split
    · rename_i e; subst e; exact List.mem_cons_of_mem _ hx
    · exact hx
  · intro c k hk
    rcases e7 c k with e | ⟨rfl, rfl, _, hse⟩
    · exact e
    · rcases hk with hk | hk
      · exact absurd rfl hk
      · rw [hse] at hk; simp at hk

theorem addUser_eq (s : LSt) (x : Nat) (v : Val) : ∃ u, s.addUser x v = { s with users := u } := by
  cases v with
  | insn y => exact ⟨_, rfl⟩
  | const k c ct b => exact ⟨s.users, rfl⟩
  | undef => exact ⟨s.users, rfl⟩

theorem Inv.setUsers {C Q g s} (h : Inv C Q g s) (u) : Inv C Q g { s with users := u } where
  tr := h.tr
  body := h.body
  just := fun b r v hv => (h.just b r v hv).mono h.sealP (fun _ e => e) (.inr rfl) (fun _ e => e)
        (fun p k v _ e => e) (fun _ e => e) (fun _ _ => rfl) (fun _ _ => .inl rfl)
        (fun _ e => e) (fun _ _ e => e) (fun _ _ => rfl)
  phiR := h.phiR
  rng := h.rng
  nodup := h.nodup
  disj := h.disj
  sealP := h.sealP
  incS := h.incS
  incE := h.incE
  next6 := h.next6

/-- One operand more for a pending phi. -/
theorem Inv.push {C Q g s} (h : Inv C Q g s) {b x} (hx : x ∈ g.phis b) (hq : Q x) (o : Nat × Val) (r : Nat) :
    Inv C Q g (s.pushPhi x o) ∧ Ext (fun y => y = x) r g s g (s.pushPhi x o) := by
  have hne : ∀ y, y ≠ x → (s.pushPhi x o).insn y = s.insn y := fun y hy => upd_ne _ _ hy
  have hop : ∀ y, ((s.pushPhi x o).insn y).op = (s.insn y).op := by
    intro y
    by_cases hy : y = x
    · subst hy; simp [LSt.pushPhi, upd]
    · rw [hne y hy]
  refine ⟨⟨?_, h.body, ?_, fun c y hy => ⟨(h.phiR c y hy).1, by rw [hop]; exact (h.phiR c y hy).2⟩, h.rng, h.nodup, h.disj, h.sealP, h.incS, ?_, h.next6⟩,
    { Ext.refl (fun y => y = x) r g s with
      insn := fun y _ hy => hne y hy
      op := fun y _ => hop y
      filled := rfl, sealed := rfl, look := fun _ _ _ h => h, lookO := fun _ _ _ => rfl,
      inc := fun _ _ _ h => h, incO := fun _ _ _ => rfl, next := Nat.le_refl _ }⟩
  · intro c
    refine (h.tr c).congr fun y hy => hne y ?_
    intro e; subst e; exact h.notCode hx hy
  · intro c k v hv
    refine (h.just c k v hv).mono h.sealP (fun _ e => e) (.inr rfl) (fun _ e => e)
        (fun p k v _ e => e) (fun _ e => e) (fun y _ => hop y) ?_ (fun _ e => e) (fun _ _ e => e) (fun _ _ => rfl)
    intro y hy
    by_cases e : y = x
    · subst e; exact .inr hq
    · exact .inl (by rw [hne y e])
  · intro c k y hs hy
    by_cases e : y = x
    · subst e; exact .inl hq
    · rw [hne y e]; exact h.incE c k y hs hy

/-- What is proved of `read_variable` for register `r`. -/
def RdSpec (C : List Blk) (rd : Nat → LSt → Out (Val × LSt)) (r : Nat) : Prop :=
  ∀ (Q : Nat → Prop) (g : Gh) (b : Nat) (s : LSt) (v : Val) (s' : LSt), Inv C Q g s → rd b s = .ok (v, s') →
    ∃ g', Inv C Q g' s' ∧ Ext (fun _ => False) r g s g' s' ∧ look s' b r = some v

theorem addOps_spec {C rd r} (hrd : RdSpec C rd r) {Q : Nat → Prop} {b x : Nat} (hq : Q x) (ps : List Nat) :
    ∀ (g : Gh) (s s' : LSt) (done : List Nat), Inv C Q g s → x ∈ g.phis b →
      (∀ p ∈ ps, s.filled p = true) →
      (s.insn x).phi.map Prod.fst = done →
      (∀ o ∈ (s.insn x).phi, s.filled o.1 = true ∧ look s o.1 r = some o.2) →
      addOps rd x ps s = .ok s' →
      ∃ g', Inv C Q g' s' ∧ Ext (fun y => y = x) r g s g' s' ∧
        (s'.insn x).phi.map Prod.fst = done ++ ps ∧
        ∀ o ∈ (s'.insn x).phi, s'.filled o.1 = true ∧ look s' o.1 r = some o.2 := by
  induction ps with
  | nil =>
    intro g s s' done h hx hf hd ho he
    cases he
    exact ⟨g, h, Ext.refl _ _ _ _, by simpa using hd, ho⟩
  | cons p ps ih =>
    intro g s s' done h hx hf hd ho he
    simp only [addOps] at he
    obtain ⟨⟨v, s1⟩, h1, he⟩ := Out.bind_eq_ok.1 he
    dsimp only at he
    obtain ⟨g1, hi1, x1, l1⟩ := hrd Q g p s v s1 h h1
    obtain ⟨u, hu⟩ := addUser_eq s1 x v
    rw [hu] at he
    have hx1 : x ∈ g1.phis b := x1.phis b x hx
    have hxlt : x < s.next := (h.rng b x (by rw [h.body]; simp [hx])).2
    have hins : s1.insn x = s.insn x := x1.insn x hxlt (fun e => e)
    obtain ⟨hi2, x2⟩ := (hi1.setUsers u).push hx1 hq (p, v) r
    have hphi : ((({ s1 with users := u } : LSt).pushPhi x (p, v)).insn x).phi = (s.insn x).phi ++ [(p, v)] := by
      simp [LSt.pushPhi, upd, hins]
    obtain ⟨g3, hi3, x3, d3, o3⟩ := ih g1 _ s' (done ++ [p]) hi2 hx1
      (fun q hq' => by
        change s1.filled q = true
        rw [x1.filled]; exact hf q (List.mem_cons_of_mem _ hq'))
      (by rw [hphi]; simp [hd])
      (by
        rw [hphi]
        intro o hmem
        change s1.filled o.1 = true ∧ look s1 o.1 r = some o.2
        rcases List.mem_append.1 hmem with hm | hm
        · have := ho o hm
          exact ⟨by rw [x1.filled]; exact this.1, x1.look _ _ _ this.2⟩
        · simp only [List.mem_singleton] at hm
          subst hm
          exact ⟨by rw [x1.filled]; exact hf p (by simp), l1⟩)
      he
    refine ⟨g3, hi3, ?_, by simpa using d3, o3⟩
    have x1' : Ext (fun y => y = x) r g s g1 { s1 with users := u } :=
      { (x1.weaken (Y' := fun y => y = x) (fun _ _ e => e.elim)) with }
    exact (x1'.trans x2).trans x3

/-- A pending phi that is complete is no longer pending. -/
theorem Inv.finish {C Q Q' g s} (h : Inv C Q g s) {b r x} (hx : x ∈ g.phis b)
    (hu : g.preg x = r) (hse : s.sealed b = true)
    (hq : ∀ y, Q y → Q' y ∨ y = x) (hc : Complete C s b r x) : Inv C Q' g s where
  tr := h.tr
  body := h.body
  just := by
    intro c k v hv
    cases h.just c k v hv with
    | sp h1 h2 => exact .sp h1 h2
    | arg h1 h2 h3 h4 => exact .arg h1 h2 h3 h4
    | copy p h1 h2 h3 h4 h5 => exact .copy p h1 h2 h3 h4 h5
    | phi y h1 h2 h3 h4 h5 h0 h6 h7 =>
      refine .phi y h1 h2 h3 h4 h5 h0 h6 ?_
      rcases h7 with h7 | h7
      · rcases hq y h7 with h8 | h8
        · exact .inl h8
        · subst h8; subst h3
          have hcb : c = b := h.disj c b y (by rw [h.body]; simp [h4]) (by rw [h.body]; simp [hx])
          subst hcb
          have : k = r := h0.symm.trans hu
          subst this
          exact .inr (.inr hc)
      · exact .inr h7
  phiR := h.phiR
  rng := h.rng
  nodup := h.nodup
  disj := h.disj
  sealP := h.sealP
  incS := h.incS
  incE := by
    intro c k y hs hy
    rcases h.incE c k y hs hy with h1 | h1
    · rcases hq y h1 with h2 | h2
      · exact .inl h2
      · subst h2
        have hm := (h.incS c k y hy).2.1
        have hcb : c = b := h.disj c b y (by rw [h.body]; simp [hm]) (by rw [h.body]; simp [hx])
        subst hcb; rw [hs] at hse; simp at hse
    · exact .inr h1
  next6 := h.next6

theorem look_ten (s : LSt) (b : Nat) : look s b 10 = some (.insn 0) := rfl

/-- `read_variable`: the value it returns is the value of the register at the end of the block (so
far), and everything else keeps its meaning. -/
theorem readVar_spec (C : List Blk) (n r : Nat) : RdSpec C (readVar C n r) r := by
  induction n generalizing r with
  | zero => intro Q g b s v s' h he; simp [readVar] at he
  | succ n ih =>
    intro Q g b s v s' h he
    rw [readVar.eq_def] at he
    dsimp only at he
    split at he
    · rename_i hr; cases he; subst hr
      exact ⟨g, h, Ext.refl _ _ _ _, look_ten _ _⟩
    rename_i hr10
    split at he
    · simp at he
    rename_i hr11
    have hr : r < 10 := by omega
    split at he
    · rename_i w hd
      cases he
      exact ⟨g, h, Ext.refl _ _ _ _, by unfold look; rw [if_neg hr10, if_neg hr11, hd]⟩
    rename_i hd
    split at he
    · rename_i hb
      split at he
      · rename_i hr5; cases he
        exact ⟨g, h, Ext.refl _ _ _ _, by unfold look; rw [if_neg hr10, if_neg hr11, hd]; simp [hb, hr5]⟩
      · simp at he
    rename_i hb
    have hn : look s b r = none := by unfold look; rw [if_neg hr10, if_neg hr11, hd]; simp [hb]
    split at he
    · rename_i hse
      cases he
      obtain ⟨h1, h2⟩ := h.phi (Q' := Q) (s' := newPhiInc s r b) hb hr hn (.inr rfl) (fun _ _ e => e) (.inl ⟨rfl, hse⟩)
      refine ⟨_, h1, h2, ?_⟩
      change look (newPhiInc s r b) b r = _
      unfold newPhiInc
      dsimp only
      rw [look_write (by omega), if_pos ⟨rfl, rfl, hr10⟩]
    rename_i hse
    have hse : s.sealed b = true := by cases e : s.sealed b <;> simp_all
    split at he
    · rename_i p hp
      obtain ⟨⟨w, s1⟩, h1, he⟩ := Out.bind_eq_ok.1 he
      cases he
      obtain ⟨g1, hi1, x1, l1⟩ := ih r Q g p s w s1 h h1
      cases hn1 : look s1 b r with
      | none =>
        obtain ⟨h2, x2⟩ := hi1.copy hb hr (by rw [x1.sealed]; exact hse) hp l1 hn1
        exact ⟨_, h2, x1.trans x2, by rw [look_write (by omega), if_pos ⟨rfl, rfl, hr10⟩]⟩
      | some u =>
        have hst : g1.start b r = some u := by
          have := (h.tr b).untouched hn (by rw [← x1.acts]; exact hi1.tr b)
          rw [← this]; exact hn1
        have hu : u = w := by
          cases hi1.just b r u hst with
          | sp h1 h2 => exact absurd h1 hr10
          | arg h1 h2 h3 h4 => exact absurd h1 hb
          | copy p' h1 h2 h3 h4 h5 =>
            rw [hp] at h4; cases h4; rw [l1] at h5; cases h5; rfl
          | phi x h1 h2 h3 h4 h5 h0 h6 h7 =>
            rcases h6 with h6 | h6
            · rw [hp] at h6; simp at h6
            · rw [x1.incO b r (.inr hse)] at h6
              have := (h.incS _ _ _ h6).1
              rw [h.start_look hn] at this; simp at this
        subst hu
        rw [write_same ((look_some hb hr).1 hn1)]
        exact ⟨g1, hi1, x1, hn1⟩
    · rename_i ps hps
      obtain ⟨s1, h1, he⟩ := Out.bind_eq_ok.1 he
      cases he
      have hlen : (predsOf C b).length ≠ 1 := by
        intro hl
        obtain ⟨p, hp⟩ := List.length_eq_one_iff.1 hl
        exact hps p hp
      obtain ⟨hi1, x1⟩ := h.phi (Q' := fun y => Q y ∨ y = s.next) (s' := newPhi s r b) hb hr hn (.inl rfl)
        (fun _ _ e => .inl e) (.inr ⟨rfl, hlen, .inr rfl⟩)
      have hxm : s.next ∈ (g.phi b r s.next).phis b := by simp [Gh.phi, upd]
      have hphi : ((newPhi s r b).insn s.next).phi = [] := by
        simp [newPhi, LSt.write, LSt.front, upd, phi0]
      obtain ⟨g2, hi2, x2, d2, o2⟩ := addOps_spec (ih r) (b := b) (Q := fun y => Q y ∨ y = s.next) (.inr rfl) (predsOf C b)
        (g.phi b r s.next) (newPhi s r b) s1 [] hi1 hxm
        (fun p hp => h.sealP b p hse hp) (by rw [hphi]; rfl) (by rw [hphi]; simp) h1
      have hl : look s1 b r = some (.insn s.next) := by
        apply x2.look
        unfold newPhi
        rw [look_write (by omega), if_pos ⟨rfl, rfl, hr10⟩]
      have hpr : g2.preg s.next = r := by
        rw [x2.preg _ (by change s.next < s.next + 1; omega)]
        exact upd_same _ _ _
      rw [write_same ((look_some hb hr).1 hl)]
      refine ⟨g2, hi2.finish (b := b) (x2.phis _ _ hxm) hpr (by rw [x2.sealed]; exact hse) (fun y e => e) ⟨by simpa using d2, o2⟩, ?_, hl⟩
      exact ((x1.weaken (Y' := fun y => y = s.next) (fun _ _ e => e.elim)).trans x2).weaken
        (fun y hy e => by omega)

theorem Inv.weakQ {C Q Q' g s} (h : Inv C Q g s) (hq : ∀ y, Q y → Q' y) : Inv C Q' g s :=
  { h with
    just := fun b r v hv => (h.just b r v hv).mono h.sealP (fun _ e => e) (.inr rfl) (fun _ e => e)
        (fun p k v _ e => e) (fun _ e => e) (fun _ _ => rfl) (fun _ _ => .inl rfl)
        (fun _ e => e) (fun y _ e => hq y e) (fun _ _ => rfl)
    incE := fun b r x h1 h2 => (h.incE b r x h1 h2).imp (hq x) id }

/-- `Ext` without the register. -/
structure ExtW (g : Gh) (s : LSt) (g' : Gh) (s' : LSt) : Prop where
  acts : g'.acts = g.acts
  code : g'.code = g.code
  filled : s'.filled = s.filled
  sealed : s'.sealed = s.sealed
  look : ∀ b k v, look s b k = some v → look s' b k = some v
  next : s.next ≤ s'.next

theorem Ext.w {Y r g s g' s'} (h : Ext Y r g s g' s') : ExtW g s g' s' :=
  ⟨h.acts, h.code, h.filled, h.sealed, h.look, h.next⟩

theorem ExtW.refl (g s) : ExtW g s g s := ⟨rfl, rfl, rfl, rfl, fun _ _ _ h => h, Nat.le_refl _⟩

theorem ExtW.trans {g s g1 s1 g2 s2} (h : ExtW g s g1 s1) (h' : ExtW g1 s1 g2 s2) : ExtW g s g2 s2 :=
  ⟨h'.acts.trans h.acts, h'.code.trans h.code, h'.filled.trans h.filled, h'.sealed.trans h.sealed,
   fun b k v hv => h'.look b k v (h.look b k v hv), Nat.le_trans h.next h'.next⟩

theorem sealRegs_spec {C : List Blk} {n b : Nat} {I0 : Nat → Option Nat} (rs : List Nat) :
    ∀ (done : List Nat) (g : Gh) (s s' : LSt), rs.Nodup → (∀ r ∈ rs, r ∉ done) →
      Inv C (fun y => ∃ r ∈ done, I0 r = some y) g s → s.inc b = I0 → s.sealed b = false →
      (∀ p ∈ predsOf C b, s.filled p = true) →
      (∀ r ∈ done, ∀ x, I0 r = some x → Complete C s b r x) →
      sealRegs C n b rs s = .ok s' →
      ∃ g', Inv C (fun y => ∃ r ∈ done ++ rs, I0 r = some y) g' s' ∧ s'.inc b = I0 ∧ ExtW g s g' s' ∧
        (∀ r ∈ done ++ rs, ∀ x, I0 r = some x → Complete C s' b r x) := by
  induction rs with
  | nil =>
    intro done g s s' _ _ h hi hse hf hc he
    cases he
    exact ⟨g, by simpa using h, hi, ExtW.refl _ _, by simpa using hc⟩
  | cons r rs ih =>
    intro done g s s' hnd hdj h hi hse hf hc he
    simp only [sealRegs] at he
    obtain ⟨s1, h1, he⟩ := Out.bind_eq_ok.1 he
    obtain ⟨hr, hnd⟩ := List.nodup_cons.1 hnd
    have hdj' : ∀ k ∈ rs, k ∉ done ++ [r] := by
      intro k hk hm
      rcases List.mem_append.1 hm with h2 | h2
      · exact hdj k (List.mem_cons_of_mem _ hk) h2
      · simp only [List.mem_singleton] at h2; subst h2; exact hr hk
    suffices hs : ∃ g1, Inv C (fun y => ∃ k ∈ done ++ [r], I0 k = some y) g1 s1 ∧ s1.inc b = I0 ∧ ExtW g s g1 s1 ∧
        (∀ k ∈ done ++ [r], ∀ x, I0 k = some x → Complete C s1 b k x) by
      obtain ⟨g1, a1, a2, a3, a4⟩ := hs
      obtain ⟨g2, b1, b2, b3, b4⟩ := ih (done ++ [r]) g1 s1 s' hnd hdj' a1 a2 (by rw [a3.sealed]; exact hse)
        (fun p hp => by rw [a3.filled]; exact hf p hp) a4 he
      refine ⟨g2, ?_, b2, a3.trans b3, ?_⟩
      · simpa using b1
      · simpa using b4
    rw [hi] at h1
    cases hx : I0 r with
    | none =>
      rw [hx] at h1
      cases h1
      refine ⟨g, h.weakQ ?_, hi, ExtW.refl _ _, ?_⟩
      · rintro y ⟨k, hk, e⟩; exact ⟨k, by simp [hk], e⟩
      · intro k hk x e
        rcases List.mem_append.1 hk with h2 | h2
        · exact hc k h2 x e
        · simp only [List.mem_singleton] at h2; subst h2; rw [hx] at e; simp at e
    | some x =>
      rw [hx] at h1
      dsimp only at h1
      have hinc : s.inc b r = some x := by rw [hi]; exact hx
      obtain ⟨c1, c2, c3, c4, c5⟩ := h.incS b r x hinc
      have hphi : (s.insn x).phi = [] := by
        rcases h.incE b r x hse hinc with ⟨k, hk, e⟩ | e
        · have := (h.incS b k x (by rw [hi]; exact e)).2.2.1
          rw [c3] at this; subst this
          exact absurd hk (hdj r (by simp))
        · exact e
      have hw : Inv C (fun y => ∃ k ∈ done ++ [r], I0 k = some y) g s :=
        h.weakQ (fun y ⟨k, hk, e⟩ => ⟨k, by simp [hk], e⟩)
      obtain ⟨g1, a1, a2, a3, a4⟩ := addOps_spec (readVar_spec C n r) (b := b)
        (Q := fun y => ∃ k ∈ done ++ [r], I0 k = some y) (x := x) ⟨r, by simp, hx⟩ (predsOf C b) g s s1 []
        hw c2 hf (by rw [hphi]; rfl) (by rw [hphi]; simp) h1
      refine ⟨g1, a1, ?_, a2.w, ?_⟩
      · rw [← hi]
        funext k
        by_cases hk : k = r
        · subst hk; rw [hinc]; exact a2.inc b k x hinc
        · exact a2.incO b k (.inl hk)
      · intro k hk y e
        rcases List.mem_append.1 hk with h2 | h2
        · have hk := h.incS b k y (by rw [hi]; exact e)
          have hylt : y < s.next := (h.rng b y (by rw [h.body]; simp [hk.2.1])).2
          have hyx : y ≠ x := by
            intro e2; subst e2
            have : k = r := hk.2.2.1.symm.trans c3
            subst this; exact hdj k (by simp) h2
          have hy := hc k h2 y e
          have hins := a2.insn y hylt hyx
          refine ⟨by rw [hins]; exact hy.1, ?_⟩
          intro o ho
          rw [hins] at ho
          have := hy.2 o ho
          exact ⟨by rw [a2.filled]; exact this.1, a2.look _ _ _ this.2⟩
        · simp only [List.mem_singleton] at h2
          subst h2
          rw [hx] at e; cases e
          exact ⟨by simpa using a3, a4⟩

/-- `seal_block` -/
theorem sealBlock_spec {C : List Blk} {n b : Nat} {g : Gh} {s s' : LSt} (h : Inv C (fun _ => False) g s)
    (hse : s.sealed b = false) (hf : ∀ p ∈ predsOf C b, s.filled p = true) (he : sealBlock C n b s = .ok s') :
    ∃ g', Inv C (fun _ => False) g' s' ∧ g'.acts = g.acts ∧ g'.code = g.code ∧ s'.filled = s.filled ∧
      s'.sealed = upd s.sealed b true := by
  unfold sealBlock at he
  obtain ⟨s1, h1, he⟩ := Out.bind_eq_ok.1 he
  cases he
  obtain ⟨g1, a1, a2, a3, a4⟩ := sealRegs_spec (C := C) (n := n) (b := b) (I0 := s.inc b) (List.range 11) [] g s s1
    List.nodup_range (by simp) (h.weakQ (fun _ e => e.elim)) rfl hse hf (by simp) h1
  simp only [List.nil_append, List.mem_range] at a1 a4
  have hse1 : s1.sealed b = false := by rw [a3.sealed]; exact hse
  have hcomp : ∀ k x, s1.inc b k = some x → Complete C s1 b k x := by
    intro k x hx
    exact a4 k (by have := (a1.incS b k x hx).2.2.2.2; omega) x (by rw [← a2]; exact hx)
  refine ⟨g1, ?_, a3.acts, a3.code, a3.filled, by rw [← a3.sealed]⟩
  refine ⟨a1.tr, a1.body, ?_, a1.phiR, a1.rng, a1.nodup, a1.disj, ?_, a1.incS, ?_, a1.next6⟩
  · intro c k v hv
    cases a1.just c k v hv with
    | sp h1 h2 => exact .sp h1 h2
    | arg h1 h2 h3 h4 => exact .arg h1 h2 h3 h4
    | copy p h1 h2 h3 h4 h5 =>
      refine .copy p h1 h2 ?_ h4 h5
      change upd s1.sealed b true c = true
      unfold upd; split
      · rfl
      · exact h3
    | phi y h1 h2 h3 h4 h5 h0 h6 h7 =>
      refine .phi y h1 h2 h3 h4 h5 h0 h6 ?_
      by_cases hc : c = b
      · subst hc
        right; right
        rcases h7 with ⟨r, hr, h7⟩ | ⟨_, h8, _⟩ | h7
        · rw [← a2] at h7
          have : k = r := h0.symm.trans (a1.incS c r y h7).2.2.1
          subst this
          exact hcomp k y h7
        · exact hcomp k y h8
        · exact h7
      · rcases h7 with ⟨r, hr, h7⟩ | ⟨h7, h8, h9⟩ | h7
        · rw [← a2] at h7
          have hm := (a1.incS b r y h7).2.1
          exact absurd (a1.disj c b y (by rw [a1.body]; simp [h4]) (by rw [a1.body]; simp [hm])) hc
        · refine .inr (.inl ⟨?_, h8, h9⟩)
          change upd s1.sealed b true c = false
          rw [upd_ne _ _ hc]; exact h7
        · exact .inr (.inr h7)
  · intro c p hc hp
    change upd s1.sealed b true c = true at hc
    by_cases hcb : c = b
    · subst hcb
      change s1.filled p = true
      rw [a3.filled]; exact hf p hp
    · rw [upd_ne _ _ hcb] at hc
      exact a1.sealP c p hc hp
  · intro c k x hs hx
    change upd s1.sealed b true c = false at hs
    by_cases hcb : c = b
    · subst hcb; rw [upd_same] at hs; simp at hs
    · rw [upd_ne _ _ hcb] at hs
      rcases a1.incE c k x hs hx with ⟨r, hr, h7⟩ | h7
      · rw [← a2] at h7
        have hm := (a1.incS b r x h7).2.1
        have hm2 := (a1.incS c k x hx).2.1
        exact absurd (a1.disj c b x (by rw [a1.body]; simp [hm2]) (by rw [a1.body]; simp [hm])) hcb
      · exact .inr h7

/-! ## Filling a block -/

theorem readOpd_spec {C : List Blk} {n b : Nat} {o : Opd} {g : Gh} {s s' : LSt} {v : Val} {Q}
    (h : Inv C Q g s) (he : readOpd C n b o s = .ok (v, s')) :
    ∃ g', Inv C Q g' s' ∧ ExtW g s g' s' ∧ rdOpd (look s' b) o = some v := by
  cases o with
  | imm i => cases he; exact ⟨g, h, ExtW.refl _ _, rfl⟩
  | reg r =>
    obtain ⟨g', a1, a2, a3⟩ := readVar_spec C n r Q g b s v s' h he
    exact ⟨g', a1, a2.w, a3⟩

theorem rdOpd_mono {m m' : M} (hm : ∀ k v, m k = some v → m' k = some v) {o v} (h : rdOpd m o = some v) :
    rdOpd m' o = some v := by
  cases o with
  | imm i => exact h
  | reg r => exact hm _ _ h

theorem readOpds_spec {C : List Blk} {n b : Nat} {Q} (os : List Opd) : ∀ {g : Gh} {s s' : LSt} {vs : List Val},
    Inv C Q g s → readOpds C n b os s = .ok (vs, s') →
    ∃ g', Inv C Q g' s' ∧ ExtW g s g' s' ∧ rdOpds (look s' b) os = some vs := by
  induction os with
  | nil => intro g s s' vs h he; cases he; exact ⟨g, h, ExtW.refl _ _, rfl⟩
  | cons o os ih =>
    intro g s s' vs h he
    simp only [readOpds] at he
    obtain ⟨⟨v, s1⟩, h1, he⟩ := Out.bind_eq_ok.1 he
    obtain ⟨⟨ws, s2⟩, h2, he⟩ := Out.bind_eq_ok.1 he
    cases he
    obtain ⟨g1, a1, a2, a3⟩ := readOpd_spec h h1
    obtain ⟨g2, b1, b2, b3⟩ := ih a1 h2
    exact ⟨g2, b1, a2.trans b2, rdOpds_cons.2 ⟨v, ws, rdOpd_mono (b2.look b) a3, b3, rfl⟩⟩

/-- One more action in the open block `b`. -/
def Gh.act (g : Gh) (b : Nat) (a : Act) (xs : List Nat) : Gh :=
  { g with acts := upd g.acts b (g.acts b ++ [a]), code := upd g.code b (g.code b ++ xs) }

theorem Inv.act {C Q g s s'} (h : Inv C Q g s) {b : Nat} {a : Act} {xs : List Nat} (hf : s.filled b = false)
    (hxs : (xs = [] ∧ s'.next = s.next) ∨ (xs = [s.next] ∧ s'.next = s.next + 1))
    (hins : ∀ x, x < s.next → s'.insn x = s.insn x)
    (hbody : s'.body = upd s.body b (s.body b ++ xs))
    (hlook : ∀ c, c ≠ b → look s' c = look s c)
    (htr : Tr1 s'.insn a (look s b) xs (look s' b))
    (hi : s'.inc = s.inc) (hs : s'.sealed = s.sealed) (hfi : s'.filled = s.filled) :
    Inv C Q (g.act b a xs) s' := by
  have hnew : ∀ c x, x ∈ xs → x ∉ s.body c := by
    intro c x hx hc
    have := h.rng c x hc
    rcases hxs with ⟨rfl, _⟩ | ⟨rfl, _⟩
    · simp at hx
    · simp only [List.mem_singleton] at hx; omega
  have hmem : ∀ c x, x ∈ s'.body c → (x ∈ xs ∧ c = b) ∨ x ∈ s.body c := by
    intro c x hx
    rw [hbody] at hx
    unfold upd at hx
    split at hx
    · rename_i e; subst e
      rcases List.mem_append.1 hx with e | e
      · exact .inr e
      · exact .inl ⟨e, rfl⟩
    · exact .inr hx
  have hphilt : ∀ c x, x ∈ g.phis c → x < s.next := by
    intro c x hx; exact (h.rng c x (by rw [h.body]; simp [hx])).2
  refine ⟨?_, ?_, ?_, fun c y hy => ⟨(h.phiR c y hy).1, by rw [hins y (hphilt c y hy)]; exact (h.phiR c y hy).2⟩, ?_, ?_, ?_, ?_, ?_, ?_, ?_⟩
  · intro c
    have h0 : Tr s'.insn (g.acts c) (g.start c) (g.code c) (look s c) :=
      (h.tr c).congr fun x hx => hins x (h.rng c x (by rw [h.body]; simp [hx])).2
    simp only [Gh.act, upd]
    by_cases hc : c = b
    · subst hc; rw [if_pos rfl, if_pos rfl]; exact h0.snoc htr
    · rw [if_neg hc, if_neg hc, hlook c hc]; exact h0
  · intro c
    rw [hbody]
    simp only [Gh.act, upd]
    by_cases hc : c = b
    · subst hc; rw [if_pos rfl, if_pos rfl, h.body]; simp
    · rw [if_neg hc, if_neg hc, h.body]
  · intro c k v hv
    refine (h.just c k v hv).mono h.sealP (fun _ e => by rw [hs]; exact e) (.inr (by rw [hs])) (fun _ e => by rw [hfi]; exact e)
      ?_ (fun _ e => e) (fun x hx => by rw [hins x (hphilt _ _ hx)]) (fun x hx => .inl (by rw [hins x (hphilt _ _ hx)]))
      (fun x e => by rw [hi]; exact e) (fun _ _ e => e) (fun _ _ => rfl)
    intro p k v hp hv
    rw [hlook p (by intro e; subst e; rw [hf] at hp; simp at hp)]; exact hv
  · intro c x hx
    rcases hmem c x hx with ⟨hx, _⟩ | hx
    · have := h.next6
      rcases hxs with ⟨rfl, _⟩ | ⟨rfl, e⟩
      · simp at hx
      · simp only [List.mem_singleton] at hx; omega
    · have := h.rng c x hx; omega
  · intro c
    rw [hbody]
    simp only [upd]
    split
    · rename_i e; subst e
      refine List.nodup_append.2 ⟨h.nodup c, ?_, ?_⟩
      · rcases hxs with ⟨rfl, _⟩ | ⟨rfl, _⟩ <;> simp
      · intro x hx y hy e; subst e; exact hnew c x hy hx
    · exact h.nodup c
  · intro c c' x hx hx'
    rcases hmem c x hx with ⟨e1, e2⟩ | hx1
    · rcases hmem c' x hx' with ⟨_, e3⟩ | hx2
      · rw [e2, e3]
      · exact absurd hx2 (hnew _ _ e1)
    · rcases hmem c' x hx' with ⟨e1, _⟩ | hx2
      · exact absurd hx1 (hnew _ _ e1)
      · exact h.disj _ _ _ hx1 hx2
  · intro c p hc hp; rw [hs] at hc; rw [hfi]; exact h.sealP c p hc hp
  · intro c k x hx; rw [hi] at hx; exact h.incS c k x hx
  · intro c k x hc hx
    rw [hs] at hc; rw [hi] at hx
    rw [hins x (hphilt _ _ (h.incS c k x hx).2.1)]
    exact h.incE c k x hc hx
  · have := h.next6; omega

theorem foldl_addUser (x : Nat) (vs : List Val) (s : LSt) :
    ∃ u, vs.foldl (fun s v => s.addUser x v) s = { s with users := u } := by
  induction vs generalizing s with
  | nil => exact ⟨s.users, rfl⟩
  | cons v vs ih =>
    obtain ⟨u, hu⟩ := addUser_eq s x v
    obtain ⟨u2, h2⟩ := ih (s.addUser x v)
    refine ⟨u2, ?_⟩
    rw [List.foldl_cons, h2, hu]

theorem look_wr {s : LSt} {d b : Nat} {v : Val} (hd : d < 11) : look (s.write d b v) b = wr (look s b) d v := by
  funext k
  rw [look_write hd]
  unfold wr upd
  by_cases h10 : d = 10
  · rw [if_pos h10, if_neg (by omega)]
  · rw [if_neg h10]
    by_cases hk : k = d
    · rw [if_pos ⟨rfl, hk, h10⟩, if_pos hk]
    · rw [if_neg (by omega), if_neg hk]

theorem emit_spec {C Q g s s'} {b : Nat} {i : Insn} {a : Option Nat} {os : List Opd} {d : Option Nat} {av : Val} {vs : List Val}
    (h : Inv C Q g s) (hf : s.filled b = false)
    (ha : rdAddr (look s b) i a = some av) (hv : rdOpds (look s b) os = some vs)
    (he : emit b { i with addr := av, vals := vs } d s = .ok s') :
    Inv C Q (g.act b (.emit i a os d) [s.next]) s' ∧ s'.filled = s.filled ∧ s'.sealed = s.sealed := by
  unfold emit at he
  dsimp only at he
  obtain ⟨u, hu⟩ := foldl_addUser s.next (av :: vs) (s.back b { i with addr := av, vals := vs })
  rw [hu] at he
  have hins : ∀ x, x < s.next → (s.back b { i with addr := av, vals := vs }).insn x = s.insn x :=
    fun x hx => upd_ne _ _ (by omega)
  have hnew : (s.back b { i with addr := av, vals := vs }).insn s.next = { i with addr := av, vals := vs } := upd_same _ _ _
  cases d with
  | none =>
    cases he
    refine ⟨h.act (xs := [s.next]) hf (.inr ⟨rfl, rfl⟩) hins rfl (fun c _ => rfl) ?_ rfl rfl rfl, rfl, rfl⟩
    exact Tr1.emit (d := none) ha hv hnew trivial
  | some d =>
    simp only [writeReg] at he
    split at he
    · simp at he
    rename_i hd
    cases he
    refine ⟨h.act (xs := [s.next]) hf (.inr ⟨rfl, rfl⟩) hins rfl ?_ ?_ rfl rfl rfl, rfl, rfl⟩
    · intro c hc
      rw [look_write_ne (by omega) hc]; rfl
    · rw [look_wr (by omega)]
      exact Tr1.emit (d := some d) ha hv hnew (by simp only [dOk]; omega)

theorem apply_spec {C Q g s s'} {n b : Nat} {a : Act} (h : Inv C Q g s) (hf : s.filled b = false)
    (he : apply C n b a s = .ok s') :
    ∃ g', Inv C Q g' s' ∧ s'.filled = s.filled ∧ s'.sealed = s.sealed ∧ g'.acts = upd g.acts b (g.acts b ++ [a]) ∧
      ∀ c, c ≠ b → g'.code c = g.code c := by
  cases a with
  | mov d o =>
    simp only [apply] at he
    obtain ⟨⟨v, s1⟩, h1, he⟩ := Out.bind_eq_ok.1 he
    obtain ⟨g1, a1, a2, a3⟩ := readOpd_spec h h1
    simp only [writeReg] at he
    split at he
    · simp at he
    rename_i hd
    cases he
    refine ⟨g1.act b (.mov d o) [], a1.act (by rw [a2.filled]; exact hf) (.inl ⟨rfl, rfl⟩) (fun _ _ => rfl) ?_ ?_ ?_ rfl rfl rfl,
      a2.filled, a2.sealed, by simp [Gh.act, a2.acts], fun c hc => by simp [Gh.act, upd_ne _ _ hc, a2.code]⟩
    · funext c
      unfold upd; split
      · rename_i e; subst e; simp [LSt.write]
      · rfl
    · intro c hc
      exact look_write_ne (by omega) hc
    · rw [look_wr (by omega)]
      exact .mov a3 (by omega)
  | emit i a os d =>
    cases a with
    | none =>
      simp only [apply] at he
      obtain ⟨⟨vs, s1⟩, h1, he⟩ := Out.bind_eq_ok.1 he
      obtain ⟨g1, a1, a2, a3⟩ := readOpds_spec os h h1
      obtain ⟨b1, b2, b3⟩ := emit_spec (i := i) (a := none) (av := i.addr) a1 (by rw [a2.filled]; exact hf) rfl a3 he
      exact ⟨_, b1, b2.trans a2.filled, b3.trans a2.sealed, by simp [Gh.act, a2.acts],
        fun c hc => by simp [Gh.act, upd_ne _ _ hc, a2.code]⟩
    | some r =>
      simp only [apply] at he
      obtain ⟨⟨av, s1⟩, h1, he⟩ := Out.bind_eq_ok.1 he
      obtain ⟨⟨vs, s2⟩, h2, he⟩ := Out.bind_eq_ok.1 he
      obtain ⟨g1, a1, a2, a3⟩ := readVar_spec C n r Q g b s av s1 h h1
      obtain ⟨g2, b1, b2, b3⟩ := readOpds_spec os a1 h2
      obtain ⟨c1, c2, c3⟩ := emit_spec (i := i) (a := some r) b1 (by rw [b2.filled, a2.filled]; exact hf) (b2.look _ _ _ a3) b3 he
      exact ⟨_, c1, c2.trans (b2.filled.trans a2.filled), c3.trans (b2.sealed.trans a2.sealed), by simp [Gh.act, b2.acts, a2.acts],
        fun c hc => by simp [Gh.act, upd_ne _ _ hc, b2.code, a2.code]⟩

/-- The actions `as` are the ones the lifter chooses for the bytecode instructions `qs`. -/
inductive Planned (C : List Blk) : List PreInsn → List Act → Prop
  | nil : Planned C [] []
  | cons {q qs a as} (defd : Nat → Bool) : plan C defd q = .ok a →
      ¬ ((q.slot.code.toNat % 8 = 4 ∨ q.slot.code.toNat % 8 = 7) ∧ q.slot.off ≠ 0) →
      Planned C qs as → Planned C (q :: qs) (a :: as)

theorem fill_spec {C Q} {n b : Nat} (qs : List PreInsn) : ∀ {g : Gh} {s s' : LSt}, Inv C Q g s → s.filled b = false →
    fill C n b qs s = .ok s' →
    ∃ g' as, Inv C Q g' s' ∧ s'.filled = s.filled ∧ s'.sealed = s.sealed ∧ g'.acts = upd g.acts b (g.acts b ++ as) ∧
      (∀ c, c ≠ b → g'.code c = g.code c) ∧ Planned C qs as := by
  induction qs with
  | nil =>
    intro g s s' h hf he
    cases he
    refine ⟨g, [], h, rfl, rfl, ?_, fun _ _ => rfl, .nil⟩
    funext c; unfold upd; split
    · rename_i e; subst e; simp
    · rfl
  | cons q qs ih =>
    intro g s s' h hf he
    simp only [fill, transformInsn] at he
    obtain ⟨s1, h1, he⟩ := Out.bind_eq_ok.1 he
    obtain ⟨a, h2, h1⟩ := Out.bind_eq_ok.1 h1
    obtain ⟨s2, h3, h1⟩ := Out.bind_eq_ok.1 h1
    split at h1
    · simp at h1
    rename_i hoff
    cases h1
    obtain ⟨g1, a1, a2, a3, a4, a5⟩ := apply_spec h hf h3
    obtain ⟨g2, as, b1, b2, b3, b4, b5, b6⟩ := ih a1 (by rw [a2]; exact hf) he
    refine ⟨g2, a :: as, b1, b2.trans a2, b3.trans a3, ?_, fun c hc => (b5 c hc).trans (a5 c hc), .cons _ h2 hoff b6⟩
    rw [b4, a4]
    funext c; unfold upd; split
    · rename_i e; subst e; simp
    · rfl

/-! ## The walk over the blocks -/

/-- Between two calls of `transform_bb`; `T` are the blocks still to be visited by callers. -/
structure GI (C : List Blk) (T : Nat → Prop) (g : Gh) (s : LSt) : Prop where
  inv : Inv C (fun _ => False) g s
  fil : ∀ b, s.filled b = true → Planned C (insnsOf C b) (g.acts b)
  unf : ∀ b, s.filled b = false → g.acts b = []
  sea : ∀ b, s.filled b = true → s.sealed b = true ∨ (∃ p ∈ predsOf C b, s.filled p = false) ∨ T b
  suc : ∀ b t, s.filled b = true → t ∈ succsOf C b → s.filled t = true ∨ T t
  sef : ∀ b, s.sealed b = true → s.filled b = true

theorem GI.weak {C T T' g s} (h : GI C T g s) (ht : ∀ b, T b → T' b) : GI C T' g s :=
  { h with
    sea := fun b hb => (h.sea b hb).imp id (Or.imp id (ht b))
    suc := fun b t hb hm => (h.suc b t hb hm).imp id (ht t) }

def VSpec (C : List Blk) (f : Nat → LSt → Out LSt) : Prop :=
  ∀ (T : Nat → Prop) (g : Gh) (b : Nat) (s s' : LSt), GI C (fun c => T c ∨ c = b) g s → f b s = .ok s' →
    ∃ g', GI C T g' s' ∧ s'.filled b = true ∧ ∀ c, s.filled c = true → s'.filled c = true

theorem visit_spec {C f} (hf : VSpec C f) (bs : List Nat) : ∀ (T : Nat → Prop) (g : Gh) (s s' : LSt),
    GI C (fun c => T c ∨ c ∈ bs) g s → visit f bs s = .ok s' →
    ∃ g', GI C T g' s' ∧ ∀ c, s.filled c = true → s'.filled c = true := by
  induction bs with
  | nil => intro T g s s' h he; cases he; exact ⟨g, h.weak (by simp), fun _ e => e⟩
  | cons b bs ih =>
    intro T g s s' h he
    simp only [visit] at he
    obtain ⟨s1, h1, he⟩ := Out.bind_eq_ok.1 he
    obtain ⟨g1, a1, _, a2⟩ := hf (fun c => T c ∨ c ∈ bs) g b s s1
      (h.weak (by intro c hc; rcases hc with hc | hc
                  · exact .inl (.inl hc)
                  · rcases List.mem_cons.1 hc with e | e
                    · exact .inr e
                    · exact .inl (.inr e))) h1
    obtain ⟨g2, b1, b2⟩ := ih T g1 s1 s' a1 he
    exact ⟨g2, b1, fun c hc => b2 c (a2 c hc)⟩

theorem Inv.setFilled {C Q g s} (h : Inv C Q g s) (b : Nat) : Inv C Q g { s with filled := upd s.filled b true } := by
  have hf : ∀ c, s.filled c = true → upd s.filled b true c = true := by
    intro c hc; unfold upd; split <;> simp_all
  exact { h with
    tr := h.tr
    just := fun c r v hv => (h.just c r v hv).mono h.sealP (fun _ e => e) (.inr rfl) hf
        (fun p k v _ e => e) (fun _ e => e) (fun _ _ => rfl) (fun _ _ => .inl rfl)
        (fun _ e => e) (fun _ _ e => e) (fun _ _ => rfl)
    sealP := fun c p hc hp => hf p (h.sealP c p hc hp)
    incE := h.incE }

theorem transformBB_spec {C : List Blk} (hC : ∀ b c, b ∈ predsOf C c → c ∈ succsOf C b) (n k : Nat) :
    VSpec C (transformBB C n k) := by
  induction k with
  | zero => intro T g b s s' h he; simp [transformBB] at he
  | succ k ih =>
    intro T g b s s' h he
    rw [transformBB.eq_def] at he
    dsimp only at he
    split at he
    · rename_i hse
      cases he
      have hfb := h.sef b hse
      refine ⟨g, { h with sea := ?_, suc := ?_ }, hfb, fun _ e => e⟩
      · intro c hc
        rcases h.sea c hc with h1 | h1 | h1 | h1
        · exact .inl h1
        · exact .inr (.inl h1)
        · exact .inr (.inr h1)
        · subst h1; exact .inl hse
      · intro c t hc ht
        rcases h.suc c t hc ht with h1 | h1 | h1
        · exact .inl h1
        · exact .inr h1
        · subst h1; exact .inl hfb
    rename_i hse
    have hse : s.sealed b = false := by cases e : s.sealed b <;> simp_all
    obtain ⟨s1, h1, he⟩ := Out.bind_eq_ok.1 he
    -- after trying to seal
    have hs1 : ∃ g1, Inv C (fun _ => False) g1 s1 ∧ g1.acts = g.acts ∧ s1.filled = s.filled ∧
        (s1.sealed b = true ∨ ∃ p ∈ predsOf C b, s.filled p = false) ∧ (∀ c, s.sealed c = true → s1.sealed c = true) ∧
        (∀ c, s1.sealed c = true → s.sealed c = true ∨ c = b) := by
      split at h1
      · rename_i hall
        obtain ⟨g1, a1, a2, _, a3, a4⟩ := sealBlock_spec h.inv hse (by simpa using hall) h1
        refine ⟨g1, a1, a2, a3, .inl (by rw [a4, upd_same]), ?_, ?_⟩
        · intro c hc; rw [a4]; unfold upd; split
          · rfl
          · exact hc
        · intro c hc; rw [a4] at hc; unfold upd at hc; split at hc
          · rename_i e; exact .inr e
          · exact .inl hc
      · rename_i hall
        cases h1
        refine ⟨g, h.inv, rfl, rfl, .inr ?_, fun _ e => e, fun _ e => .inl e⟩
        simp only [List.all_eq_true, Classical.not_forall] at hall
        obtain ⟨p, hp, hq⟩ := hall
        exact ⟨p, hp, by cases e : s.filled p <;> simp_all⟩
    obtain ⟨g1, a1, a2, a3, a4, a5, a6⟩ := hs1
    split at he
    · rename_i hfb
      cases he
      refine ⟨g1, ⟨a1, ?_, ?_, ?_, ?_, ?_⟩, hfb, fun c e => by rw [a3]; exact e⟩
      · intro c hc; rw [a3] at hc; rw [a2]; exact h.fil c hc
      · intro c hc; rw [a3] at hc; rw [a2]; exact h.unf c hc
      · intro c hc
        rw [a3] at hc
        rcases h.sea c hc with h1 | h1 | h1 | h1
        · exact .inl (a5 c h1)
        · rw [a3]; exact .inr (.inl h1)
        · exact .inr (.inr h1)
        · subst h1; rw [a3]; exact a4.imp id .inl
      · intro c t hc ht
        rw [a3] at hc ⊢
        rcases h.suc c t hc ht with h1 | h1 | h1
        · exact .inl h1
        · exact .inr h1
        · subst h1; left; rw [← a3]; exact hfb
      · intro c hc
        rcases a6 c hc with h1 | h1
        · rw [a3]; exact h.sef c h1
        · subst h1; exact hfb
    · rename_i hfb
      have hfb : s1.filled b = false := by cases e : s1.filled b <;> simp_all
      obtain ⟨s2, h2, he⟩ := Out.bind_eq_ok.1 he
      obtain ⟨g2, as, b1, b2, b3, b4, _, b6⟩ := fill_spec _ a1 hfb h2
      have hab : g1.acts b = [] := by rw [a2]; exact h.unf b (by rw [← a3]; exact hfb)
      rw [hab, List.nil_append] at b4
      have hfil : ∀ c, upd s2.filled b true c = true ↔ s.filled c = true ∨ c = b := by
        intro c
        rw [b2, a3]
        unfold upd; split
        · rename_i e; simp [e]
        · rename_i e; simp [e]
      have hGI : GI C (fun c => T c ∨ c ∈ succsOf C b) g2 { s2 with filled := upd s2.filled b true } := by
        refine ⟨b1.setFilled b, ?_, ?_, ?_, ?_, ?_⟩
        · intro c hc
          rw [b4]
          unfold upd; split
          · rename_i e; subst e; exact b6
          · rename_i e
            rw [a2]
            exact h.fil c (((hfil c).1 hc).resolve_right e)
        · intro c hc
          have hcb : c ≠ b := by
            intro e; subst e
            have := (hfil c).2 (.inr rfl)
            change upd s2.filled c true c = false at hc
            rw [this] at hc; simp at hc
          rw [b4, upd_ne _ _ hcb, a2]
          apply h.unf
          have hc' : ¬ upd s2.filled b true c = true := by
            intro e; change upd s2.filled b true c = false at hc; rw [e] at hc; simp at hc
          rw [hfil] at hc'
          cases e : s.filled c
          · rfl
          · exact absurd (.inl e) hc'
        · intro c hc
          change s2.sealed c = true ∨ _
          rw [b3]
          have key : (∃ p ∈ predsOf C c, s.filled p = false) →
              (∃ p ∈ predsOf C c, upd s2.filled b true p = false) ∨ (T c ∨ c ∈ succsOf C b) := by
            rintro ⟨p, hp, hpf⟩
            by_cases e : p = b
            · subst e; exact .inr (.inr (hC p c hp))
            · refine .inl ⟨p, hp, ?_⟩
              rw [upd_ne _ _ e, b2, a3]; exact hpf
          rcases (hfil c).1 hc with hc | hc
          · rcases h.sea c hc with h1 | h1 | h1 | h1
            · exact .inl (a5 c h1)
            · exact .inr (key h1)
            · exact .inr (.inr (.inl h1))
            · subst h1; exact a4.imp id key
          · subst hc; exact a4.imp id key
        · intro c t hc ht
          rcases (hfil c).1 hc with hc | hc
          · rcases h.suc c t hc ht with h1 | h1 | h1
            · exact .inl ((hfil t).2 (.inl h1))
            · exact .inr (.inl h1)
            · exact .inl ((hfil t).2 (.inr h1))
          · subst hc; exact .inr (.inr ht)
        · intro c hc
          apply (hfil c).2
          change s2.sealed c = true at hc
          rw [b3] at hc
          rcases a6 c hc with h1 | h1
          · exact .inl (h.sef c h1)
          · exact .inr h1
      obtain ⟨g3, c1, c2⟩ := visit_spec ih (succsOf C b) T g2 _ s' hGI he
      exact ⟨g3, c1, c2 b ((hfil b).2 (.inr rfl)), fun c hc => c2 c ((hfil c).2 (.inl hc))⟩

/-- Auxiliary data at the beginning. -/
def gh0 : Gh where
  acts := fun _ => []
  start := fun b => look init b
  code := fun _ => []
  phis := fun _ => []
  preg := fun _ => 0

theorem init_inv (C : List Blk) : Inv C (fun _ => False) gh0 init := by
  refine ⟨fun b => .nil, fun b => rfl, ?_, ?_, ?_, ?_, ?_, ?_, ?_, ?_, Nat.le_refl 6⟩
  · intro b r v hv
    change look init b r = some v at hv
    unfold look at hv
    split at hv
    · rename_i h; cases hv; exact .sp h rfl
    · split at hv
      · simp at hv
      · change (if b = 0 ∧ 1 ≤ r ∧ r ≤ 5 then some (Val.insn r) else none) = some v at hv
        split at hv
        · rename_i h; cases hv; exact .arg h.1 h.2.1 h.2.2 rfl
        · simp at hv
  all_goals simp [gh0, init]

theorem init_GI (C : List Blk) : GI C (fun c => False ∨ c = 0) gh0 init := by
  refine ⟨init_inv C, ?_, ?_, ?_, ?_, ?_⟩ <;> simp [gh0, init]

/-- What the lifter has established at the end. -/
theorem liftBlocks_spec {C : List Blk} (hC : ∀ b c, b ∈ predsOf C c → c ∈ succsOf C b) {n : Nat} {s : LSt}
    (h : liftBlocks n C = .ok s) : ∃ g, GI C (fun _ => False) g s ∧ s.filled 0 = true := by
  obtain ⟨g, a1, a2, _⟩ := transformBB_spec hC n n (fun _ => False) gh0 0 init s (init_GI C) h
  exact ⟨g, a1, a2⟩

end Verif.Lift
