import Verif.Show.Lines
import Verif.Spec.Alike
import Verif.Spec.WellFormed
import Verif.Layout.Lemmas
/-!
# Functions with the same listing do the same
-/
namespace Verif.Show
open Verif Verif.IR Verif.Edit
open Verif.Opts (Str)
open Verif.Tool (str dec dec_inj Stops stops_lit)

/-- What has a name: a register, an argument, what has a number. -/
def Named (f : Fn) (t : Tags) (x : Nat) : Prop := (f.insn x).op = .reg ∨ (f.insn x).op = .funarg ∨ ∃ k, t.id x = some k

/-- What has a number for a name. -/
def Numbered (f : Fn) (t : Tags) (x : Nat) : Prop := (f.insn x).op ≠ .reg ∧ (f.insn x).op ≠ .funarg ∧ ∃ k, t.id x = some k

/-- The instructions that have the same name in two listings. -/
def SameName (f : Fn) (t : Tags) (e : Extra) (g : Fn) (t' : Tags) (e' : Extra) (x y : Nat) : Prop := Named f t x ∧ Named g t' y ∧ nameOf f t e x = nameOf g t' e' y

/-- More about functions whose listing shows all. -/
structure Open (f : Fn) (t : Tags) (e : Extra) (R : List Nat) : Prop extends Clear f t e R where
  named : ∀ b ∈ R, ∀ x ∈ f.body b, ∀ y, .insn y ∈ shown (f.insn x) → Named f t y
  vars : ∀ b ∈ R, ∀ x ∈ f.body b, (f.insn x).op = .store ∨ (f.insn x).op = .load → ∀ y vs, (f.insn x).vals = .insn y :: vs → Numbered f t y
  targets : ∀ b ∈ R, ∀ x ∈ f.body b, (f.insn x).op = .ja ∨ (f.insn x).op.condJmp = true → (f.insn x).bb1 ∈ R
  others : ∀ b ∈ R, ∀ x ∈ f.body b, (f.insn x).op.condJmp = true → (f.insn x).bb2 ∈ R
  labels : ∀ b ∈ R, ∀ x ∈ f.body b, (f.insn x).op = .phi → ∀ o ∈ (f.insn x).phi, (t.bid o.1).isSome = true
  nodup : R.Nodup
  first : R.head? = some f.entry
  falls : ∀ b ∈ R, (∀ x ∈ f.body b, ends (f.insn x).op = false) → ∃ c, f.succs b = [c] ∧ Layout.Next R b c

variable {f g : Fn} {t t' : Tags} {e e' : Extra} {R S : List Nat}

theorem Clear.named_inj (h : Clear f t e R) {x y k : Nat} (hx : t.id x = some k) (ox : (f.insn x).op ≠ .reg ∧ (f.insn x).op ≠ .funarg) : nameOf f t e x = str "%" ++ dec k := by
  unfold nameOf
  rw [if_neg ox.1, if_neg ox.2, hx]

/-- Whoever has the number for a name is the one with that number. -/
theorem Clear.only (h : Clear f t e R) {y k : Nat} (hk : k < 10 ^ 20) (hy : Named f t y) (e1 : nameOf f t e y = str "%" ++ dec k) : t.id y = some k := by
  unfold nameOf at e1
  by_cases h1 : (f.insn y).op = .reg
  · rw [if_pos h1] at e1
    injection e1 with e1 _
    exact absurd e1 (by decide)
  · rw [if_neg h1] at e1
    by_cases h2 : (f.insn y).op = .funarg
    · rw [if_pos h2] at e1
      injection e1 with e1 _
      exact absurd e1 (by decide)
    · rw [if_neg h2] at e1
      rcases hy with hy | hy | ⟨m, hm⟩
      · exact absurd hy h1
      · exact absurd hy h2
      · rw [hm] at e1
        dsimp only at e1
        have : m < 10 ^ 20 := by have := (h.once.small y m hm).1; have := h.fits.1; omega
        have nil : Stops ([] : Str) := fun c e => by cases e
        have := (dec_inj (r := []) (r' := []) this hk nil nil (by simpa using e1)).1
        rw [hm, this]

section
variable (h : Clear f t e R) (h' : Clear g t' e' S)
include h h'

theorem agree_upd {α : Type} {u v : Nat → α} {x y k : Nat} (a : α) (hx : t.id x = some k) (hy : t'.id y = some k) (ox : (f.insn x).op ≠ .reg ∧ (f.insn x).op ≠ .funarg)
    (oy : (g.insn y).op ≠ .reg ∧ (g.insn y).op ≠ .funarg) (hu : Match (SameName f t e g t' e') u v) :
    Match (SameName f t e g t' e') (fun z => if z = x then a else u z) (fun z => if z = y then a else v z) := by
  have hk : k < 10 ^ 20 := by have := (h.once.small x k hx).1; have := h.fits.1; omega
  have nx : nameOf f t e x = str "%" ++ dec k := h.named_inj (y := x) hx ox
  have ny : nameOf g t' e' y = str "%" ++ dec k := h'.named_inj (y := y) hy oy
  intro p q ⟨hp, hq, hn⟩
  dsimp only
  by_cases e1 : p = x
  · subst e1
    have : q = y := h'.once.id _ _ _ (h'.only hk hq (hn.symm.trans nx)) hy
    rw [if_pos rfl, if_pos this]
  · by_cases e2 : q = y
    · subst e2
      exact absurd (h.once.id _ _ _ (h.only hk hp (hn.trans ny)) hx) e1
    · rw [if_neg e1, if_neg e2]
      exact hu p q ⟨hp, hq, hn⟩

theorem agree_set {σ τ : St} {x y k : Nat} (a : BitVec 64) (hx : t.id x = some k) (hy : t'.id y = some k) (ox : (f.insn x).op ≠ .reg ∧ (f.insn x).op ≠ .funarg)
    (oy : (g.insn y).op ≠ .reg ∧ (g.insn y).op ≠ .funarg) (hs : MatchSt (SameName f t e g t' e') σ τ) : MatchSt (SameName f t e g t' e') (σ.set x a) (τ.set y a) :=
  ⟨agree_upd h h' a hx hy ox oy hs.env, hs.var, hs.mem, hs.trace⟩

end

theorem eval_alike {σ τ : St} {v w : Val} (hs : MatchSt (SameName f t e g t' e') σ τ) (hv : VAlike (nameOf f t e) (nameOf g t' e') v w) (h1 : ∀ y, v = .insn y → Named f t y)
    (h2 : ∀ y, w = .insn y → Named g t' y) : eval σ v = eval τ w := by
  cases v <;> cases w <;> first | exact absurd hv id | skip
  · exact congrArg some hv
  · exact congrArg some (hs.env _ _ ⟨h1 _ rfl, h2 _ rfl, hv⟩)
  · rfl

theorem evalAll_alike {σ τ : St} (hs : MatchSt (SameName f t e g t' e') σ τ) : ∀ {vs ws : List Val}, All2 (VAlike (nameOf f t e) (nameOf g t' e')) vs ws → (∀ y, .insn y ∈ vs → Named f t y) →
    (∀ y, .insn y ∈ ws → Named g t' y) → evalAll σ vs = evalAll τ ws
  | [], [], _, _, _ => rfl
  | v :: vs, w :: ws, h, h1, h2 => by
    simp only [evalAll]
    rw [eval_alike hs h.1 (fun y k => h1 y (by rw [k]; simp)) (fun y k => h2 y (by rw [k]; simp)), evalAll_alike hs h.2 (fun y k => h1 y (by simp [k])) (fun y k => h2 y (by simp [k]))]

/-- Both have no meaning, or the same. -/
def AgreeOpt (N : Nat → Nat → Prop) : Option St → Option St → Prop
  | none, none => True
  | some σ, some τ => MatchSt N σ τ
  | _, _ => False

/-- An instruction of a printed block. -/
structure Ins (f : Fn) (t : Tags) (i : Insn) : Prop where
  named : ∀ y, .insn y ∈ shown i → Named f t y
  vars : i.op = .store ∨ i.op = .load → ∀ y vs, i.vals = .insn y :: vs → Numbered f t y

theorem Open.ins (h : Open f t e R) {b x : Nat} (hb : b ∈ R) (hx : x ∈ f.body b) : Ins f t (f.insn x) := ⟨h.named b hb x hx, h.vars b hb x hx⟩

theorem All2.one {α β : Type} {P : α → β → Prop} {a : α} {m : List β} (h : All2 P [a] m) : ∃ b, m = [b] ∧ P a b := by
  match m, h with
  | [b], h => exact ⟨b, rfl, h.1⟩
theorem All2.two {α β : Type} {P : α → β → Prop} {a a' : α} {m : List β} (h : All2 P [a, a'] m) : ∃ b b', m = [b, b'] ∧ P a b ∧ P a' b' := by
  match m, h with
  | [b, b'], h => exact ⟨b, b', rfl, h.1, h.2.1⟩

/-- Operations that leave a result. -/
theorem solid {i : Insn} {nm bt : Nat → Str} (h : Says nm bt i) : i.op ≠ .reg ∧ i.op ≠ .funarg := by
  have := h.vals
  refine ⟨fun e => ?_, fun e => ?_⟩ <;> simp [arity, e] at this

section
variable (h : Clear f t e R) (h' : Clear g t' e' S) {W W' : World} (hW : MatchWorld (SameName f t e g t' e') W W') {σ τ : St} (hs : MatchSt (SameName f t e g t' e') σ τ) {x y : Nat}
  (s : Says (nameOf f t e) (bbName t e) (f.insn x)) (s' : Says (nameOf g t' e') (bbName t' e') (g.insn y)) (n : Ins f t (f.insn x)) (n' : Ins g t' (g.insn y))
  (I : IAlike (nameOf f t e) (bbName t e) (nameOf g t' e') (bbName t' e') (f.insn x) (g.insn y))
include h h' hs s s' n n' I

theorem ev1 {v w : Val} (a : VAlike (nameOf f t e) (nameOf g t' e') v w) (hv : v ∈ shown (f.insn x)) (hw : w ∈ shown (g.insn y)) : eval σ v = eval τ w :=
  eval_alike hs a (fun y k => n.named y (k ▸ hv)) (fun y k => n'.named y (k ▸ hw))

variable (num : isVoid (f.insn x).op = false → ∃ k, t.id x = some k ∧ t'.id y = some k)
include num

theorem put (hv : isVoid (f.insn x).op = false) (a : BitVec 64) : MatchSt (SameName f t e g t' e') (σ.set x a) (τ.set y a) := by
  obtain ⟨k, k1, k2⟩ := num hv
  exact agree_set h h' a k1 k2 (solid s) (solid s') hs

/-- One value in, one result. -/
theorem exec_one (G : BitVec 64 → Option (BitVec 64)) (hv : isVoid (f.insn x).op = false) {v w : Val} (a : VAlike (nameOf f t e) (nameOf g t' e') v w) (m : v ∈ shown (f.insn x)) (m' : w ∈ shown (g.insn y)) :
    AgreeOpt (SameName f t e g t' e') ((eval σ v).bind fun u => (G u).bind fun z => some (σ.set x z)) ((eval τ w).bind fun u => (G u).bind fun z => some (τ.set y z)) := by
  rw [ev1 h h' hs s s' n n' I a m m']
  cases eval τ w with
  | none => trivial
  | some u =>
    show AgreeOpt _ ((G u).bind _) ((G u).bind _)
    cases G u with
    | none => trivial
    | some z => exact put h h' hs s s' n n' I num hv z

include hW

theorem exec_alike (hc : (f.insn x).op.condJmp = false) (hr : (f.insn x).op ≠ .ret ∧ (f.insn x).op ≠ .throw ∧ (f.insn x).op ≠ .phi ∧ (f.insn x).op ≠ .ja) :
    AgreeOpt (SameName f t e g t' e') (exec W x (f.insn x) σ) (exec W' y (g.insn y) τ) := by
  have hv := s.vals
  have hv' := s'.vals
  have pt := put h h' hs s s' n n' I num
  have ev := fun {v w : Val} => ev1 h h' hs s s' n n' I (v := v) (w := w)
  have bin : ∀ o, Flat.aluOp (f.insn x).op = some o → aluName (f.insn x).op ≠ none → (∀ i : Insn, i.op = (f.insn x).op → arity i = some 2 ∧ shown i = i.vals.take 2) → isVoid (f.insn x).op = false →
      (∀ (W : World) (z : Nat) (i : Insn) (σ : St), i.op = (f.insn x).op → exec W z i σ = match i.vals with
        | [v0, v1] => do
          let o ← Flat.aluOp i.op
          let w ← Flat.width i.aluOp
          let y ← eval σ v0
          let u ← eval σ v1
          some (σ.set z (Bpf.alu w o y u))
        | _ => none) → AgreeOpt (SameName f t e g t' e') (exec W x (f.insn x) σ) (exec W' y (g.insn y) τ) := by
    intro o ho hn hs' hvd he
    rw [he W x _ σ rfl, he W' y _ τ I.op.symm]
    rw [(hs' _ rfl).1] at hv
    obtain ⟨v, v1, ev0⟩ := two hv rfl
    have I2 := I.vals
    rw [ev0] at I2
    obtain ⟨w, w1, ew0, p, q⟩ := I2.two
    rw [ev0, ew0]
    have sh : shown (f.insn x) = [v, v1] := by rw [(hs' _ rfl).2, ev0]; rfl
    have sh' : shown (g.insn y) = [w, w1] := by rw [(hs' _ I.op.symm).2, ew0]; rfl
    dsimp only
    rw [ev p (by rw [sh]; simp) (by rw [sh']; simp), ev q (by rw [sh]; simp) (by rw [sh']; simp), I.alu (.inl (by cases hh : aluName (f.insn x).op <;> simp_all)), ← I.op, ho]
    show AgreeOpt _ ((Flat.width _).bind _) ((Flat.width _).bind _)
    cases Flat.width (g.insn y).aluOp with
    | none => trivial
    | some wd =>
      show AgreeOpt _ ((eval τ w).bind _) ((eval τ w).bind _)
      cases eval τ w with
      | none => trivial
      | some a =>
        show AgreeOpt _ ((eval τ w1).bind _) ((eval τ w1).bind _)
        cases eval τ w1 with
        | none => trivial
        | some b => exact pt hvd _
  cases ho : (f.insn x).op with
  | alloc =>
    have ho' := I.op.symm.trans ho
    simp only [exec, ho, ho']
    exact hs
  | allocarray =>
    have ho' := I.op.symm.trans ho
    have hd : isVoid (f.insn x).op = false := by rw [ho]; rfl
    obtain ⟨k, k1, k2⟩ := num hd
    have : W.arr x = W'.arr y := hW.arr x y ⟨.inr (.inr ⟨k, k1⟩), .inr (.inr ⟨k, k2⟩), by rw [h.named_inj (y := x) k1 (solid s), h'.named_inj (y := y) k2 (solid s')]⟩
    simp only [exec, ho, ho', this]
    exact pt hd _
  | getelemptr =>
    have ho' := I.op.symm.trans ho
    rw [show arity (f.insn x) = some 2 by simp [arity, ho]] at hv
    obtain ⟨v, v1, ev0⟩ := two hv rfl
    have I2 := I.vals
    rw [ev0] at I2
    obtain ⟨w, w1, ew0, p, q⟩ := I2.two
    have sh : shown (f.insn x) = [v, v1] := by simp [shown, ho, ev0]
    have sh' : shown (g.insn y) = [w, w1] := by simp [shown, ho', ew0]
    simp only [exec, ho, ho', ev0, ew0]
    rw [ev p (by rw [sh]; simp) (by rw [sh']; simp), ev q (by rw [sh]; simp) (by rw [sh']; simp)]
    show AgreeOpt _ ((eval τ w).bind _) ((eval τ w).bind _)
    cases eval τ w with
    | none => trivial
    | some a =>
      show AgreeOpt _ ((eval τ w1).bind _) ((eval τ w1).bind _)
      cases eval τ w1 with
      | none => trivial
      | some b => exact pt (by rw [ho]; rfl) _
  | store =>
    have ho' := I.op.symm.trans ho
    rw [show arity (f.insn x) = some 2 by simp [arity, ho]] at hv
    obtain ⟨v, v1, ev0⟩ := two hv rfl
    have I2 := I.vals
    rw [ev0] at I2
    obtain ⟨w, w1, ew0, p, q⟩ := I2.two
    have sh : shown (f.insn x) = [v, v1] := by simp [shown, ho, ev0]
    have sh' : shown (g.insn y) = [w, w1] := by simp [shown, ho', ew0]
    simp only [exec, ho, ho', ev0, ew0]
    cases v <;> cases w <;> first | exact absurd p id | skip
    · trivial
    · rename_i a c
      dsimp only
      rw [ev q (by rw [sh]; simp) (by rw [sh']; simp)]
      show AgreeOpt _ ((eval τ w1).bind _) ((eval τ w1).bind _)
      cases eval τ w1 with
      | none => trivial
      | some b =>
        obtain ⟨r1, r2, k, r3⟩ := n.vars (.inl ho) a _ ev0
        obtain ⟨r4, r5, k', r6⟩ := n'.vars (.inl ho') c _ ew0
        have hk : k < 10 ^ 20 := by have := (h.once.small a k r3).1; have := h.fits.1; omega
        have p' : nameOf f t e a = nameOf g t' e' c := p
        rw [h.named_inj (y := a) r3 ⟨r1, r2⟩] at p'
        exact ⟨hs.env, agree_upd h h' b r3 (h'.only hk (.inr (.inr ⟨k', r6⟩)) p'.symm) ⟨r1, r2⟩ ⟨r4, r5⟩ hs.var, hs.mem, hs.trace⟩
    · trivial
  | load =>
    have ho' := I.op.symm.trans ho
    rw [show arity (f.insn x) = some 1 by simp [arity, ho]] at hv
    obtain ⟨v, ev0⟩ := one hv rfl
    have I2 := I.vals
    rw [ev0] at I2
    obtain ⟨w, ew0, p⟩ := I2.one
    have sh : shown (f.insn x) = [v] := by simp [shown, ho, ev0]
    have sh' : shown (g.insn y) = [w] := by simp [shown, ho', ew0]
    simp only [exec, ho, ho', ev0, ew0]
    cases v <;> cases w <;> first | exact absurd p id | skip
    · trivial
    · rename_i a c
      have N : SameName f t e g t' e' a c := ⟨n.named a (by rw [sh]; simp), n'.named c (by rw [sh']; simp), p⟩
      dsimp only
      rw [hs.var a c N, hW.wid a c N]
      exact pt (by rw [ho]; rfl) _
    · trivial
  | loadimm =>
    have ho' := I.op.symm.trans ho
    obtain ⟨i1, i2⟩ := I.imm ho
    simp only [exec, ho, ho', i1, i2, hW.bpf]
    exact pt (by rw [ho]; rfl) _
  | loadraw =>
    have ho' := I.op.symm.trans ho
    obtain ⟨i1, i2, i3⟩ := I.addr (by rw [ho]; rfl)
    simp only [exec, ho, ho', i2, i3, hs.mem]
    rw [ev i1 (by simp [shown, ho]) (by simp [shown, ho'])]
    show AgreeOpt _ ((eval τ _).bind _) ((eval τ _).bind _)
    cases eval τ (g.insn y).addr with
    | none => trivial
    | some a =>
      show AgreeOpt _ ((Flat.bytes _).bind _) ((Flat.bytes _).bind _)
      cases Flat.bytes (g.insn y).vrType with
      | none => trivial
      | some b => exact pt (by rw [ho]; rfl) _
  | storeraw =>
    have ho' := I.op.symm.trans ho
    obtain ⟨i1, i2, i3⟩ := I.addr (by rw [ho]; rfl)
    rw [show arity (f.insn x) = some 1 by simp [arity, ho]] at hv
    obtain ⟨v, ev0⟩ := one hv rfl
    have I2 := I.vals
    rw [ev0] at I2
    obtain ⟨w, ew0, p⟩ := I2.one
    have sh : shown (f.insn x) = [(f.insn x).addr, v] := by simp [shown, ho, ev0]
    have sh' : shown (g.insn y) = [(g.insn y).addr, w] := by simp [shown, ho', ew0]
    simp only [exec, ho, ho', i2, i3, hs.mem, ev0, ew0]
    rw [ev i1 (by rw [sh]; simp) (by rw [sh']; simp), ev p (by rw [sh]; simp) (by rw [sh']; simp)]
    show AgreeOpt _ ((eval τ _).bind _) ((eval τ _).bind _)
    cases eval τ (g.insn y).addr with
    | none => trivial
    | some a =>
      show AgreeOpt _ ((Flat.bytes _).bind _) ((Flat.bytes _).bind _)
      cases Flat.bytes (g.insn y).vrType with
      | none => trivial
      | some b =>
        show AgreeOpt _ ((eval τ w).bind _) ((eval τ w).bind _)
        cases eval τ w with
        | none => trivial
        | some c => exact ⟨hs.env, hs.var, rfl, hs.trace⟩
  | neg =>
    have ho' := I.op.symm.trans ho
    rw [show arity (f.insn x) = some 1 by simp [arity, ho]] at hv
    obtain ⟨v, ev0⟩ := one hv rfl
    have I2 := I.vals
    rw [ev0] at I2
    obtain ⟨w, ew0, p⟩ := I2.one
    simp only [exec, ho, ho', ev0, ew0, I.alu (.inr (.inr ho))]
    have := exec_one h h' hs s s' n n' I num (fun u => (Flat.width (g.insn y).aluOp).bind fun wd => some (Bpf.negate wd u)) (by rw [ho]; rfl) p (by simp [shown, ho, ev0]) (by simp [shown, ho', ew0])
    simp only [Option.bind_assoc, Option.bind_some] at this
    exact this
  | htobe =>
    have ho' := I.op.symm.trans ho
    rw [show arity (f.insn x) = some 1 by simp [arity, ho]] at hv
    obtain ⟨v, ev0⟩ := one hv rfl
    have I2 := I.vals
    rw [ev0] at I2
    obtain ⟨w, ew0, p⟩ := I2.one
    simp only [exec, ho, ho', ev0, ew0, I.aux (.inr (.inl ho))]
    exact exec_one h h' hs s s' n n' I num _ (by rw [ho]; rfl) p (by simp [shown, ho, ev0]) (by simp [shown, ho', ew0])
  | htole =>
    have ho' := I.op.symm.trans ho
    rw [show arity (f.insn x) = some 1 by simp [arity, ho]] at hv
    obtain ⟨v, ev0⟩ := one hv rfl
    have I2 := I.vals
    rw [ev0] at I2
    obtain ⟨w, ew0, p⟩ := I2.one
    simp only [exec, ho, ho', ev0, ew0, I.aux (.inr (.inr ho))]
    exact exec_one h h' hs s s' n n' I num _ (by rw [ho]; rfl) p (by simp [shown, ho, ev0]) (by simp [shown, ho', ew0])
  | assign =>
    have ho' := I.op.symm.trans ho
    rw [show arity (f.insn x) = some 1 by simp [arity, ho]] at hv
    obtain ⟨v, ev0⟩ := one hv rfl
    have I2 := I.vals
    rw [ev0] at I2
    obtain ⟨w, ew0, p⟩ := I2.one
    obtain ⟨c1, c2⟩ := I.copy ho
    simp only [exec, ho, ho', ev0, ew0, if_neg c1, if_neg c2]
    exact exec_one h h' hs s s' n n' I num (fun u => some u) (by rw [ho]; rfl) p (by simp [shown, ho, ev0]) (by simp [shown, ho', ew0])
  | call =>
    have ho' := I.op.symm.trans ho
    have sh : shown (f.insn x) = (f.insn x).vals := by simp [shown, ho]
    have sh' : shown (g.insn y) = (g.insn y).vals := by simp [shown, ho']
    simp only [exec, ho, ho', I.aux (.inl ho), hs.mem, hs.trace, hW.bpf]
    rw [evalAll_alike hs I.vals (fun y k => n.named y (sh ▸ k)) (fun y k => n'.named y (sh' ▸ k))]
    show AgreeOpt _ ((evalAll τ _).bind _) ((evalAll τ _).bind _)
    cases evalAll τ (g.insn y).vals with
    | none => trivial
    | some a =>
      have := pt (by rw [ho]; rfl) (W'.bpf.call τ.trace (g.insn y).aux a τ.mem).ret
      exact ⟨this.env, this.var, rfl, rfl⟩
  | ret => exact absurd ho hr.1
  | throw => exact absurd ho hr.2.1
  | phi => exact absurd ho hr.2.2.1
  | ja => exact absurd ho hr.2.2.2
  | reg => exact absurd ho (solid s).1
  | funarg => exact absurd ho (solid s).2
  | ecall => simp [arity, ho] at hv
  | jeq | jgt | jge | jlt | jle | jne | jsge | jsle | jsgt | jslt => rw [ho] at hc; cases hc
  | add | sub | mul | div | or | and | lsh | arsh | rsh | mod | xor =>
    rw [ho] at bin
    exact bin _ rfl (by simp [aluName]) (fun i k => by simp [arity, shown, k]) rfl (fun W z i σ k => by simp only [exec, k]; rfl)
end

end Verif.Show
