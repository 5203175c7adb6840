import Verif.Lift.Machine
import Verif.Spec.Init
/-!
# The construction of SSA form ends
-/
namespace Verif.Lift
open Verif Verif.Bpf Verif.IR Verif.GenBB
set_option linter.unusedSimpArgs false
set_option linter.unusedVariables false

/-- The outcome is a result with `Q`, or an error and `X` holds. -/
def Okay {α : Type} (X : Prop) (Q : α → Prop) : Out α → Prop
  | .ok a => Q a
  | .err => X
  | _ => False

theorem Okay.bind {α β : Type} {X : Prop} {Q : α → Prop} {Q' : β → Prop} {o : Out α} {f : α → Out β} (h : Okay X Q o) (hf : ∀ a, Q a → Okay X Q' (f a)) :
    Okay X Q' (o >>= f) := by
  cases o with
  | ok a => exact hf a h
  | err => exact h
  | crit => exact h.elim
  | ub => exact h.elim

theorem Okay.mono {α : Type} {X : Prop} {Q Q' : α → Prop} {o : Out α} (h : Okay X Q o) (hf : ∀ a, Q a → Q' a) : Okay X Q' o := by
  cases o with
  | ok a => exact hf a h
  | err => exact h
  | crit => exact h.elim
  | ub => exact h.elim

/-- An instruction of the list writes register `r`. -/
def Wrote (qs : List PreInsn) (r : Nat) : Prop := ∃ q ∈ qs, ∃ i, decode q.slot = some i ∧ writes i = some r

/-- A way of blocks leads from the entry to the start of `b` on which `r` is not written. -/
inductive Bare (C : List Blk) (r : Nat) : Nat → Prop
  | entry : ¬ (1 ≤ r ∧ r ≤ 5) → r ≠ 10 → Bare C r 0
  | step {b c : Nat} : Bare C r b → c ∈ succsOf C b → ¬ Wrote (insnsOf C b) r → Bare C r c

structure Ctx (C : List Blk) (d : Nat → Nat) (K : Nat) : Prop where
  edge : ∀ b c, b ∈ predsOf C c ↔ c ∈ succsOf C b
  lt_pred : ∀ b, ∀ p ∈ predsOf C b, p < C.length
  lt_succ : ∀ b, ∀ p ∈ succsOf C b, p < C.length
  rank : ∀ b p, b ≠ 0 → b < C.length → predsOf C b = [p] → d p < d b
  le : ∀ b, b < C.length → d b ≤ K

structure TInv (C : List Blk) (X : Prop) (s : LSt) : Prop where
  sea : ∀ b, s.sealed b = true → ∀ p ∈ predsOf C b, s.filled p = true
  inc : ∀ b r x, s.inc b r = some x → r < 10 ∧ (Bare C r b → X)
  fil : ∀ b r, s.filled b = true → s.defs r b = none → ¬ Wrote (insnsOf C b) r

/-- Reading `r` at `b` fails only for a reason. -/
def Can (C : List Blk) (X : Prop) (s : LSt) (r b : Nat) : Prop := s.defs r b = none → Bare C r b → X

structure After (C : List Blk) (X : Prop) (s s' : LSt) : Prop where
  inv : TInv C X s'
  fil : s'.filled = s.filled
  sea : s'.sealed = s.sealed
  def_ : ∀ r b, s'.defs r b = none → s.defs r b = none

theorem After.refl {C X s} (h : TInv C X s) : After C X s s := ⟨h, rfl, rfl, fun _ _ h => h⟩

theorem After.trans {C X s s' s''} (h : After C X s s') (h' : After C X s' s'') : After C X s s'' :=
  ⟨h'.inv, h'.fil.trans h.fil, h'.sea.trans h.sea, fun r b e => h.def_ r b (h'.def_ r b e)⟩

theorem Can.after {C X s s' r b} (h : Can C X s r b) (ha : After C X s s') : Can C X s' r b := fun e => h (ha.def_ _ _ e)

/-- Number of blocks without an entry for `r`. -/
def open_ (C : List Blk) (r : Nat) (s : LSt) : Nat := (List.range C.length).countP fun b => (s.defs r b).isNone

theorem open_le {C X r s s'} (h : After C X s s') : open_ C r s' ≤ open_ C r s := by
  unfold open_
  apply List.countP_mono_left
  intro b _ e
  have : s'.defs r b = none := by simpa using e
  simpa using h.def_ _ _ this

theorem countP_lt {α : Type} {p q : α → Bool} {l : List α} (h : ∀ x ∈ l, q x = true → p x = true) {x : α} (hx : x ∈ l) (h1 : p x = true) (h2 : q x = false) : l.countP q + 1 ≤ l.countP p := by
  induction l with
  | nil => simp at hx
  | cons a l ih =>
    rw [List.countP_cons, List.countP_cons]
    rcases List.mem_cons.1 hx with rfl | hx
    · have := List.countP_mono_left (l := l) (p := q) (q := p) fun y hy => h y (List.mem_cons_of_mem _ hy)
      rw [h1, h2]; simp; omega
    · have := ih (fun y hy => h y (List.mem_cons_of_mem _ hy)) hx
      by_cases e : q a = true
      · rw [e, h a List.mem_cons_self e]; simp; omega
      · simp only [e]; simp; omega

/-- States that differ in the instructions only, and in entries for `r` at `b`. -/
theorem After.set {C X s} (h : TInv C X s) {s' : LSt} (h1 : s'.filled = s.filled) (h2 : s'.sealed = s.sealed) (h3 : s'.inc = s.inc)
    (h4 : ∀ r b, s'.defs r b = none → s.defs r b = none) : After C X s s' := by
  refine ⟨⟨?_, ?_, ?_⟩, h1, h2, h4⟩
  · rw [h1, h2]; exact h.sea
  · rw [h3]; exact h.inc
  · rw [h1]; exact fun b r hb e => h.fil b r hb (h4 _ _ e)

theorem write_defs (s : LSt) (r b : Nat) (v : Val) (r' b' : Nat) : (s.write r b v).defs r' b' = if r' = r ∧ b' = b then some v else s.defs r' b' := by
  unfold LSt.write upd
  dsimp only
  by_cases h1 : r' = r
  · subst h1
    by_cases h2 : b' = b
    · simp [h2]
    · simp [h2]
  · simp [h1]

theorem write_none {s : LSt} {r b : Nat} {v : Val} {r' b' : Nat} (h : (s.write r b v).defs r' b' = none) : s.defs r' b' = none := by
  rw [write_defs] at h
  split at h
  · simp at h
  · exact h

theorem After.write {C X s} (h : TInv C X s) (r b : Nat) (v : Val) : After C X s (s.write r b v) :=
  After.set h rfl rfl rfl fun _ _ => write_none

theorem addUser_defs (s : LSt) (x : Nat) (v : Val) : (s.addUser x v).defs = s.defs ∧ (s.addUser x v).inc = s.inc ∧ (s.addUser x v).filled = s.filled ∧ (s.addUser x v).sealed = s.sealed := by
  unfold LSt.addUser
  split <;> exact ⟨rfl, rfl, rfl, rfl⟩

theorem addOps_total {C X} {rd : Nat → LSt → Out (Val × LSt)} {x : Nat} : ∀ (ps : List Nat) (s : LSt), TInv C X s →
    (∀ p ∈ ps, ∀ s', After C X s s' → Okay X (fun a => After C X s' a.2) (rd p s')) → Okay X (After C X s) (addOps rd x ps s)
  | [], s, h, _ => After.refl h
  | p :: ps, s, h, hr => by
    unfold addOps
    refine (hr p List.mem_cons_self s (After.refl h)).bind ?_
    rintro ⟨v, s1⟩ h1
    dsimp only at h1 ⊢
    obtain ⟨e1, e2, e3, e4⟩ := addUser_defs s1 x v
    have h2 : After C X s1 ((s1.addUser x v).pushPhi x (p, v)) := After.set h1.inv e3 e4 e2 fun r b e => by
      rw [show ((s1.addUser x v).pushPhi x (p, v)).defs = (s1.addUser x v).defs from rfl, e1] at e; exact e
    have h3 := h1.trans h2
    exact (addOps_total ps _ h3.inv fun q hq s' hs' => hr q (List.mem_cons_of_mem _ hq) s' (h3.trans hs')).mono fun _ ha => h3.trans ha

theorem readVar_total {C X d K} (hC : Ctx C d K) : ∀ (n r b : Nat) (s : LSt), r ≤ 10 → b < C.length → TInv C X s → Can C X s r b →
    open_ C r s * (K + 1) + d b + 1 ≤ n → Okay X (fun a => After C X s a.2) (readVar C n r b s)
  | 0, r, b, s, _, _, _, _, hn => by omega
  | n + 1, r, b, s, hr, hb, hi, hc, hn => by
    unfold readVar
    split
    · exact After.refl hi
    rename_i h10
    rw [if_neg (by omega)]
    split
    · exact After.refl hi
    rename_i hd
    split
    · rename_i h0
      subst h0
      split
      · exact After.refl hi
      · rename_i ha
        exact hc hd (.entry ha h10)
    rename_i h0
    split
    · rename_i hs
      have h1 : After C X s { s.front b phi0 with inc := upd (s.front b phi0).inc b (upd ((s.front b phi0).inc b) r (some s.next)) } := by
        refine ⟨⟨hi.sea, ?_, hi.fil⟩, rfl, rfl, fun _ _ e => e⟩
        intro b' r' x e
        by_cases hb' : b' = b
        · by_cases hr' : r' = r
          · subst hb' hr'
            exact ⟨by omega, fun hB => hc hd hB⟩
          · simp only [upd, hb', hr', if_true, if_false] at e
            exact hi.inc b' r' x (by rw [hb']; exact e)
        · simp only [upd, hb', if_false] at e
          exact hi.inc b' r' x e
      exact h1.trans (After.write h1.inv _ _ _)
    rename_i hs
    have hs : s.sealed b = true := by simpa using hs
    have hp : ∀ p ∈ predsOf C b, Can C X s r p := fun p hp e hB =>
      hc hd (.step hB ((hC.edge _ _).1 hp) (hi.fil p r (hi.sea b hs p hp) e))
    split
    · rename_i p e
      have hm : p ∈ predsOf C b := by rw [e]; exact List.mem_singleton.2 rfl
      have := hC.rank b p h0 hb e
      refine (readVar_total hC n r p s hr (hC.lt_pred b p hm) hi (hp p hm) (by omega)).bind ?_
      rintro ⟨v, s1⟩ h1
      exact h1.trans (After.write h1.inv _ _ _)
    · have h1 : After C X s (s.front b phi0) := After.set hi rfl rfl rfl fun _ _ e => e
      have h2 := h1.trans (After.write h1.inv r b (.insn s.next))
      have hlt : open_ C r ((s.front b phi0).write r b (.insn s.next)) + 1 ≤ open_ C r s := by
        refine countP_lt (x := b) (fun c _ e => ?_) (List.mem_range.2 hb) (by rw [hd]; rfl) (by rw [write_defs]; simp)
        have : ((s.front b phi0).write r b (.insn s.next)).defs r c = none := by simpa using e
        simpa using h2.def_ _ _ this
      refine (addOps_total _ _ h2.inv ?_).bind ?_
      · intro p hm s' hs'
        have hle : open_ C r s' + 1 ≤ open_ C r s := Nat.le_trans (Nat.succ_le_succ (open_le hs')) hlt
        have hK := hC.le p (hC.lt_pred b p hm)
        have := Nat.mul_le_mul_right (K + 1) hle
        rw [Nat.add_mul] at this
        exact readVar_total hC n r p s' hr (hC.lt_pred b p hm) hs'.inv ((hp p hm).after (h2.trans hs')) (by omega)
      · intro s3 h3
        have h4 := h2.trans h3
        exact h4.trans (After.write h4.inv _ _ _)

/-- Fuel that is enough for every read. -/
def enough (C : List Blk) (K : Nat) : Nat := C.length * (K + 1) + K + 1

theorem read_total {C X d K} (hC : Ctx C d K) {n r b : Nat} {s : LSt} (hr : r ≤ 10) (hb : b < C.length) (hi : TInv C X s) (hc : Can C X s r b) (hn : enough C K ≤ n) :
    Okay X (fun a => After C X s a.2) (readVar C n r b s) := by
  refine readVar_total hC n r b s hr hb hi hc ?_
  have h1 : open_ C r s ≤ C.length := by
    have := List.countP_le_length (p := fun b => (s.defs r b).isNone) (l := List.range C.length)
    rwa [List.length_range] at this
  have := Nat.mul_le_mul_right (K + 1) h1
  have := hC.le b hb
  unfold enough at hn
  omega

theorem sealRegs_total {C X d K} (hC : Ctx C d K) {n b : Nat} (hn : enough C K ≤ n) : ∀ (rs : List Nat) (s : LSt), TInv C X s →
    (∀ p ∈ predsOf C b, s.filled p = true) → Okay X (After C X s) (sealRegs C n b rs s)
  | [], s, h, _ => After.refl h
  | r :: rs, s, h, hf => by
    unfold sealRegs
    have : Okay X (After C X s) (match s.inc b r with | some x => addOps (readVar C n r) x (predsOf C b) s | none => .ok s) := by
      split
      · rename_i x e
        obtain ⟨hr, hB⟩ := h.inc b r x e
        refine addOps_total _ _ h fun p hm s' hs' => ?_
        refine read_total hC (by omega) (hC.lt_pred b p hm) hs'.inv ?_ hn
        intro e' hb'
        exact hB (.step hb' ((hC.edge _ _).1 hm) (h.fil p r (hf p hm) (hs'.def_ _ _ e')))
      · exact After.refl h
    refine this.bind fun s1 h1 => ?_
    exact (sealRegs_total hC hn rs s1 h1.inv (by rw [h1.fil]; exact hf)).mono fun _ ha => h1.trans ha

def opdRegs : Opd → List Nat
  | .reg r => [r]
  | .imm _ => []

def Act.regs : Act → List Nat
  | .mov _ o => opdRegs o
  | .emit _ a os _ => a.toList ++ os.flatMap opdRegs

def Act.dst : Act → Option Nat
  | .mov d _ => some d
  | .emit _ _ _ d => d

theorem readOpds_total {C X d K} (hC : Ctx C d K) {n b : Nat} (hn : enough C K ≤ n) (hb : b < C.length) : ∀ (os : List Opd) (s : LSt), TInv C X s →
    (∀ r ∈ os.flatMap opdRegs, r ≤ 10 ∧ Can C X s r b) → Okay X (fun a => After C X s a.2) (readOpds C n b os s)
  | [], s, h, _ => After.refl h
  | o :: os, s, h, hr => by
    unfold readOpds
    have : Okay X (fun a => After C X s a.2) (readOpd C n b o s) := by
      unfold readOpd
      cases o with
      | imm i => exact After.refl h
      | reg r =>
        obtain ⟨h1, h2⟩ := hr r (List.mem_flatMap.2 ⟨_, List.mem_cons_self, List.mem_singleton.2 rfl⟩)
        exact read_total hC h1 hb h h2 hn
    refine this.bind ?_
    rintro ⟨v, s1⟩ h1
    dsimp only at h1 ⊢
    refine (readOpds_total hC hn hb os s1 h1.inv ?_).bind ?_
    · intro r hm
      obtain ⟨o', ho', hm⟩ := List.mem_flatMap.1 hm
      obtain ⟨h2, h3⟩ := hr r (List.mem_flatMap.2 ⟨o', List.mem_cons_of_mem _ ho', hm⟩)
      exact ⟨h2, h3.after h1⟩
    · rintro ⟨vs, s2⟩ h2
      exact h1.trans h2

/-- The state after the instruction: nothing lost, and its register has a value. -/
def Done (C : List Blk) (X : Prop) (s : LSt) (b : Nat) (d : Option Nat) (s' : LSt) : Prop := After C X s s' ∧ ∀ r, d = some r → s'.defs r b ≠ none

theorem writeReg_total {C X s} (h : TInv C X s) {r b : Nat} {v : Val} (hr : r ≤ 10) : Okay X (Done C X s b (some r)) (writeReg r b v s) := by
  unfold writeReg
  rw [if_neg (by omega)]
  refine ⟨After.write h _ _ _, ?_⟩
  rintro _ ⟨⟩
  rw [write_defs]; simp

theorem addUsers_same (x : Nat) : ∀ (vs : List Val) (s : LSt), (vs.foldl (fun s v => s.addUser x v) s).defs = s.defs ∧ (vs.foldl (fun s v => s.addUser x v) s).inc = s.inc ∧
    (vs.foldl (fun s v => s.addUser x v) s).filled = s.filled ∧ (vs.foldl (fun s v => s.addUser x v) s).sealed = s.sealed
  | [], s => ⟨rfl, rfl, rfl, rfl⟩
  | v :: vs, s => by
    obtain ⟨h1, h2, h3, h4⟩ := addUser_defs s x v
    obtain ⟨g1, g2, g3, g4⟩ := addUsers_same x vs (s.addUser x v)
    exact ⟨g1.trans h1, g2.trans h2, g3.trans h3, g4.trans h4⟩

theorem emit_total {C X s} (h : TInv C X s) {b : Nat} {i : Insn} {d : Option Nat} (hd : ∀ r, d = some r → r ≤ 10) : Okay X (Done C X s b d) (emit b i d s) := by
  unfold emit
  dsimp only
  obtain ⟨h1, h2, h3, h4⟩ := addUsers_same s.next (i.addr :: i.vals) (s.back b i)
  have ha : After C X s ((i.addr :: i.vals).foldl (fun s' v => s'.addUser s.next v) (s.back b i)) :=
    After.set h h3 h4 h2 fun r b' e => by rw [h1] at e; exact e
  cases d with
  | none => exact ⟨ha, fun r e => by cases e⟩
  | some d => exact (writeReg_total ha.inv (hd d rfl)).mono fun _ hx => ⟨ha.trans hx.1, hx.2⟩

theorem apply_total {C X d K} (hC : Ctx C d K) {n b : Nat} (hn : enough C K ≤ n) (hb : b < C.length) {a : Act} {s : LSt} (h : TInv C X s)
    (hr : ∀ r ∈ a.regs, r ≤ 10 ∧ Can C X s r b) (hd : ∀ r, a.dst = some r → r ≤ 10) : Okay X (Done C X s b a.dst) (apply C n b a s) := by
  cases a with
  | mov d o =>
    have : Okay X (fun a => After C X s a.2) (readOpd C n b o s) := by
      cases o with
      | imm i => exact After.refl h
      | reg r =>
        obtain ⟨h1, h2⟩ := hr r (List.mem_singleton.2 rfl)
        exact read_total hC h1 hb h h2 hn
    refine this.bind ?_
    rintro ⟨v, s1⟩ h1
    exact (writeReg_total h1.inv (hd d rfl)).mono fun _ hx => ⟨h1.trans hx.1, hx.2⟩
  | emit i ad os d =>
    cases ad with
    | none =>
      refine (readOpds_total hC hn hb os s h (by simpa [Act.regs] using hr)).bind ?_
      rintro ⟨v, s1⟩ h1
      exact (emit_total h1.inv hd).mono fun _ hx => ⟨h1.trans hx.1, hx.2⟩
    | some r =>
      obtain ⟨h1, h2⟩ := hr r (by simp [Act.regs])
      refine (read_total hC h1 hb h h2 hn).bind ?_
      rintro ⟨v, s1⟩ h1
      dsimp only at h1 ⊢
      refine (readOpds_total hC hn hb os s1 h1.inv ?_).bind ?_
      · intro r' hm
        obtain ⟨h2, h3⟩ := hr r' (List.mem_append_right _ hm)
        exact ⟨h2, h3.after h1⟩
      · rintro ⟨vs, s2⟩ h2
        have h2 := h1.trans h2
        exact (emit_total h2.inv hd).mono fun _ hx => ⟨h2.trans hx.1, hx.2⟩

/-- What an instruction of the block `b`, after the instructions `pre`, must fulfil. -/
structure Fitting (C : List Blk) (X : Prop) (b : Nat) (pre : List PreInsn) (q : PreInsn) (i : Instr) : Prop where
  dec : decode q.slot = some i
  sup : ¬ Supported i → X
  set : ∀ r ∈ reads i, Bare C r b → ¬ Wrote pre r → X
  reg : (∀ r ∈ reads i, r ≤ 10) ∧ ∀ d, writes i = some d → d ≤ 10
  jmp : ∀ off, jumpOffset i = some off → ∃ t, bbAt C (q.pos + off.toInt + 1) = .ok t
  nxt : ∀ w c d src off, i = .jcc w c d src off → ∃ t, bbAt C (q.pos + 1) = .ok t

theorem arity_of {k : Int} {fid : BitVec 32} (h : helperArgs[fid.toNat]? = some k) : arity fid = k.toNat := by unfold arity; rw [h]; rfl

theorem opd_regs (src : Src) : opdRegs (opd src) = src.regs := by cases src <;> rfl

theorem opdRegs_reg (r : Nat) : opdRegs (.reg r) = [r] := rfl

theorem argOpds_regs (k : Nat) : (argOpds k).flatMap opdRegs = (List.range k).map (· + 1) := by
  unfold argOpds
  rw [List.flatMap_map]
  induction List.range k with
  | nil => rfl
  | cons a l ih => rw [List.flatMap_cons, ih]; rfl

theorem helperArgs_le : ∀ k ∈ helperArgs, k ≤ 5 := by decide +kernel

theorem plan_total {C X b pre q i} (h : Fitting C X b pre q i) (defd : Nat → Bool) :
    Okay X (fun a => (∀ r ∈ a.regs, r ≤ 10 ∧ (X ∨ r ∈ reads i)) ∧ a.dst = writes i) (plan C defd q) := by
  rw [plan_decode C defd q h.dec]
  have hr := h.reg.1
  have key : ∀ (l : List Nat), l = reads i → ∀ r ∈ l, r ≤ 10 ∧ (X ∨ r ∈ reads i) := by
    rintro _ rfl r hm; exact ⟨hr r hm, .inr hm⟩
  cases i with
  | alu w op d src =>
    unfold planI
    dsimp only
    by_cases ho : op = .mov
    · rw [if_pos ho]
      exact ⟨key _ (by simp [Act.regs, reads, ho, opd_regs]), rfl⟩
    · rw [if_neg ho]
      exact ⟨key _ (by simp [Act.regs, reads, ho, opd_regs, opdRegs_reg]), rfl⟩
  | neg w d => exact ⟨key _ rfl, rfl⟩
  | swap be d w => exact ⟨key _ rfl, rfl⟩
  | ldimm d k =>
    unfold planI
    dsimp only
    split
    · exact ⟨key _ rfl, rfl⟩
    · rename_i hk; exact h.sup hk
  | ldx m sz d s off => exact ⟨key _ rfl, rfl⟩
  | st sz d off imm => exact ⟨key _ rfl, rfl⟩
  | stx sz d s off => exact ⟨key _ rfl, rfl⟩
  | ja off =>
    obtain ⟨t, ht⟩ := h.jmp off rfl
    unfold planI
    dsimp only
    rw [ht]
    exact ⟨key _ rfl, rfl⟩
  | jcc w c d src off =>
    obtain ⟨t, ht⟩ := h.jmp off rfl
    obtain ⟨t', ht'⟩ := h.nxt _ _ _ _ _ rfl
    unfold planI
    dsimp only
    split
    · rename_i e
      refine h.sup fun hc => hc ?_
      cases c <;> simp [irCond] at e ⊢
    · rw [ht, ht']
      exact ⟨key _ (by simp [Act.regs, reads, opd_regs, opdRegs_reg]), rfl⟩
  | call fid =>
    obtain ⟨hs, rfl⟩ := decode_call h.dec
    unfold planI
    dsimp only
    unfold planCall
    rw [hs, if_neg (by decide), if_neg (by decide), if_neg (by decide)]
    split
    · rename_i hneg
      refine h.sup ?_
      rintro ⟨k, hk, _⟩
      have h1 : q.slot.imm.toNat < helperArgs.length := by
        rw [List.getElem?_eq_some_iff] at hk; exact hk.1
      have h2 : helperArgs.length ≤ 2 ^ 31 := by decide +kernel
      rw [BitVec.toInt_eq_toNat_cond] at hneg
      split at hneg <;> omega
    split
    · rename_i e
      refine h.sup ?_
      rintro ⟨k, hk, _⟩
      rw [e] at hk; cases hk
    rename_i k e
    split
    · rename_i hk
      have hX : X := by
        refine h.sup ?_
        rintro ⟨k', hk', h0⟩
        rw [e] at hk'; cases hk'; omega
      split
      · refine ⟨fun r hm => ⟨?_, .inl hX⟩, rfl⟩
        have hm : r ∈ (argOpds (printkArgs defd)).flatMap opdRegs := hm
        rw [argOpds_regs] at hm
        obtain ⟨j, hj, rfl⟩ := List.mem_map.1 hm
        have hj := List.mem_range.1 hj
        have : printkArgs defd ≤ 5 := by unfold printkArgs; split <;> (try split) <;> (try split) <;> omega
        omega
      · exact hX
    rename_i hk
    rw [if_neg (by have := helperArgs_le k (List.mem_of_getElem? e); omega)]
    refine ⟨key _ ?_, rfl⟩
    show (argOpds k.toNat).flatMap opdRegs = _
    rw [argOpds_regs]
    show _ = (List.range (arity q.slot.imm)).map (· + 1)
    rw [arity_of e]
  | exit => exact ⟨key _ rfl, rfl⟩

theorem decode_off {s : Slot} {i : Instr} (h : decode s = some i) : ¬ ((s.code.toNat % 8 = 4 ∨ s.code.toNat % 8 = 7) ∧ s.off ≠ 0) := by
  rintro ⟨hc, ho⟩
  unfold decode at h
  dsimp only at h
  rcases hc with hc | hc <;> simp only [hc] at h <;> split at h <;> simp_all

theorem transformInsn_total {C X d K} (hC : Ctx C d K) {n b : Nat} (hn : enough C K ≤ n) (hb : b < C.length) {pre : List PreInsn} {q : PreInsn} {i : Instr} (hs : Fitting C X b pre q i) {s : LSt}
    (h : TInv C X s) (hp : ∀ r, s.defs r b = none → ¬ Wrote pre r) : Okay X (Done C X s b (writes i)) (transformInsn C n b q s) := by
  unfold transformInsn
  refine (plan_total hs _).bind ?_
  rintro a ⟨hr, hd⟩
  refine (apply_total hC hn hb h (fun r hm => ?_) (fun r e => hs.reg.2 r (hd ▸ e))).bind ?_
  · obtain ⟨h1, h2⟩ := hr r hm
    refine ⟨h1, fun e hB => ?_⟩
    rcases h2 with h2 | h2
    · exact h2
    · exact hs.set r h2 hB (hp r e)
  · intro s1 h1
    rw [if_neg (decode_off hs.dec), ← hd]
    exact h1

/-- The instructions of a block. -/
def Fittings (C : List Blk) (X : Prop) (b : Nat) (qs : List PreInsn) : Prop := ∀ pre q post, qs = pre ++ q :: post → ∃ i, Fitting C X b pre q i

theorem fill_total {C X d K} (hC : Ctx C d K) {n b : Nat} (hn : enough C K ≤ n) (hb : b < C.length) : ∀ (qs pre : List PreInsn) (s : LSt), Fittings C X b (pre ++ qs) →
    TInv C X s → (∀ r, s.defs r b = none → ¬ Wrote pre r) → Okay X (fun s' => After C X s s' ∧ ∀ r, s'.defs r b = none → ¬ Wrote (pre ++ qs) r) (fill C n b qs s)
  | [], pre, s, _, h, hp => ⟨After.refl h, by simpa using hp⟩
  | q :: qs, pre, s, hq, h, hp => by
    unfold fill
    obtain ⟨i, hi⟩ := hq pre q qs rfl
    refine (transformInsn_total hC hn hb hi h hp).bind ?_
    rintro s1 ⟨h1, h2⟩
    have e : pre ++ q :: qs = (pre ++ [q]) ++ qs := by simp
    rw [e] at hq ⊢
    refine (fill_total hC hn hb qs (pre ++ [q]) s1 hq h1.inv ?_).mono fun _ ha => ⟨h1.trans ha.1, ha.2⟩
    rintro r er ⟨q', hm, i', hd', hw'⟩
    rcases List.mem_append.1 hm with hm | hm
    · exact hp r (h1.def_ _ _ er) ⟨q', hm, i', hd', hw'⟩
    · rw [List.mem_singleton.1 hm, hi.dec] at hd'
      cases hd'
      exact h2 r hw' er

/-- Number of blocks still to be filled. -/
def todo (C : List Blk) (s : LSt) : Nat := (List.range C.length).countP fun b => !s.filled b

theorem visit_total {C X} {f : Nat → LSt → Out LSt} {k : Nat} (hf : ∀ b s, b < C.length → TInv C X s → todo C s + 1 ≤ k → Okay X (fun s' => TInv C X s' ∧ ∀ b, s.filled b = true → s'.filled b = true) (f b s)) :
    ∀ (bs : List Nat) (s : LSt), (∀ b ∈ bs, b < C.length) → TInv C X s → todo C s + 1 ≤ k → Okay X (fun s' => TInv C X s' ∧ ∀ b, s.filled b = true → s'.filled b = true) (visit f bs s)
  | [], s, _, h, _ => ⟨h, fun _ e => e⟩
  | b :: bs, s, hb, h, hk => by
    unfold visit
    refine (hf b s (hb b List.mem_cons_self) h hk).bind ?_
    rintro s1 ⟨h1, h2⟩
    have : todo C s1 ≤ todo C s := by
      unfold todo
      apply List.countP_mono_left
      intro c _ e
      by_cases hc : s.filled c = true
      · rw [h2 c hc] at e; simp at e
      · simpa using hc
    exact (visit_total hf bs s1 (fun c hc => hb c (List.mem_cons_of_mem _ hc)) h1 (by omega)).mono fun _ ha => ⟨ha.1, fun c e => ha.2 c (h2 c e)⟩

theorem transformBB_total {C X d K} (hC : Ctx C d K) {n : Nat} (hn : enough C K ≤ n) (hq : ∀ b, Fittings C X b (insnsOf C b)) : ∀ (k b : Nat) (s : LSt), b < C.length → TInv C X s →
    todo C s + 1 ≤ k → Okay X (fun s' => TInv C X s' ∧ ∀ b, s.filled b = true → s'.filled b = true) (transformBB C n k b s)
  | 0, b, s, _, _, hk => by omega
  | k + 1, b, s, hb, h, hk => by
    unfold transformBB
    split
    · exact ⟨h, fun _ e => e⟩
    have : Okay X (fun s' => TInv C X s' ∧ s'.filled = s.filled) (if (predsOf C b).all s.filled then sealBlock C n b s else .ok s) := by
      split
      · rename_i ha
        have ha : ∀ p ∈ predsOf C b, s.filled p = true := by simpa using ha
        unfold sealBlock
        refine (sealRegs_total hC hn _ s h ha).bind ?_
        intro s1 h1
        refine ⟨⟨?_, h1.inv.inc, h1.inv.fil⟩, h1.fil⟩
        intro c hc p hp
        show s1.filled p = true
        by_cases e : c = b
        · rw [h1.fil]; exact ha p (e ▸ hp)
        · exact h1.inv.sea c (by simpa [upd, e] using hc) p hp
      · exact ⟨h, rfl⟩
    refine this.bind ?_
    rintro s1 ⟨h1, e1⟩
    split
    · exact ⟨h1, fun c e => by rw [e1]; exact e⟩
    rename_i hnf
    have hnf : s1.filled b = false := by simpa using hnf
    refine (fill_total hC hn hb (insnsOf C b) [] s1 (by simpa using hq b) h1 (fun r _ hw => ?_)).bind ?_
    · obtain ⟨q, hm, _⟩ := hw; simp at hm
    rintro s2 ⟨h2, h3⟩
    rw [List.nil_append] at h3
    have h4 : TInv C X { s2 with filled := upd s2.filled b true } := by
      refine ⟨fun c hc p hp => ?_, h2.inv.inc, fun c r hc e => ?_⟩
      · show upd s2.filled b true p = true
        unfold upd
        split
        · rfl
        · exact h2.inv.sea c hc p hp
      · by_cases ec : c = b
        · subst ec; exact h3 r e
        · exact h2.inv.fil c r (by simpa [upd, ec] using hc) e
    have h5 : todo C { s2 with filled := upd s2.filled b true } + 1 ≤ todo C s := by
      refine countP_lt (x := b) (fun c _ e => ?_) (List.mem_range.2 hb) (by rw [← e1, hnf]; rfl) (by simp [upd])
      rw [← e1, ← h2.fil]
      by_cases ec : c = b
      · subst ec; simp [upd] at e
      · simpa [upd, ec] using e
    refine (visit_total (fun c s' hc hs' hk' => transformBB_total hC hn hq k c s' hc hs' hk') _ _ (fun c hc => hC.lt_succ b c hc) h4 (by omega)).mono fun s' ha => ⟨ha.1, fun c e => ha.2 c ?_⟩
    show upd s2.filled b true c = true
    unfold upd
    split
    · rfl
    · rw [h2.fil, e1]; exact e

theorem init_tinv (C : List Blk) (X : Prop) : TInv C X init := ⟨fun _ h => by simp [init] at h, fun _ _ _ h => by simp [init] at h, fun _ _ h => by simp [init] at h⟩

theorem liftBlocks_total {C X d K} (hC : Ctx C d K) (h0 : 0 < C.length) (hq : ∀ b, Fittings C X b (insnsOf C b)) {n : Nat} (hn : enough C K ≤ n) : Okay X (fun _ => True) (liftBlocks n C) := by
  refine (transformBB_total hC hn hq n 0 init h0 (init_tinv C X) ?_).mono fun _ _ => trivial
  have h1 : todo C init ≤ C.length := by
    have := List.countP_le_length (p := fun b => !init.filled b) (l := List.range C.length)
    rwa [List.length_range] at this
  have : C.length ≤ C.length * (K + 1) := Nat.le_mul_of_pos_right _ (Nat.succ_pos _)
  unfold enough at hn
  omega

end Verif.Lift
