import Verif.Spec.Agree
import Verif.Spec.Uses
/-!
# Lemmas: instructions in states that agree on their operands
-/
namespace Verif.IR
open Verif

theorem Agree.set {P : Nat → Prop} {σ σ' : St} (h : Agree P σ σ') (x : Nat) (v : BitVec 64) :
    Agree P (σ.set x v) (σ'.set x v) := by
  refine ⟨fun y hy => ?_, h.var, h.mem, h.trace⟩
  show (if y = x then v else σ'.env y) = (if y = x then v else σ.env y)
  rw [h.env y hy]

/-- The value refers to names in `P` only. -/
def VIn (P : Nat → Prop) (v : Val) : Prop := ∀ y, v = .insn y → P y

theorem eval_agree {P : Nat → Prop} {σ σ' : St} (h : Agree P σ σ') {v : Val} (hv : VIn P v) :
    eval σ' v = eval σ v := by
  cases v with
  | const k c ct b => rfl
  | insn y => simp [eval, h.env y (hv y rfl)]
  | undef => rfl

theorem evalAll_agree {P : Nat → Prop} {σ σ' : St} (h : Agree P σ σ') :
    ∀ {l : List Val}, (∀ v ∈ l, VIn P v) → evalAll σ' l = evalAll σ l
  | [], _ => rfl
  | v :: vs, hl => by
    have ih := evalAll_agree h (l := vs) (fun w hw => hl w (List.mem_cons_of_mem _ hw))
    simp only [evalAll, eval_agree h (hl v (by simp)), ih]

/-- Operands of an instruction other than phi operands. -/
structure InsIn (P : Nat → Prop) (i : Insn) : Prop where
  vals : ∀ v ∈ i.vals, VIn P v
  addr : i.op = .loadraw ∨ i.op = .storeraw → VIn P i.addr

theorem exec_agree {P : Nat → Prop} {σ σ' : St} (h : Agree P σ σ') (W : World) (x : Nat) {i : Insn}
    (hi : InsIn P i) : OptRel (Agree P) (exec W x i σ) (exec W x i σ') := by
  obtain ⟨hv, ha⟩ := hi
  obtain ⟨op, vals, phi, addr, addrOff, addrKind, aluOp, vrType, bb1, bb2, aux, immKind, imm64⟩ := i
  dsimp only at hv ha
  have two : ∀ {v0 v1 : Val} (g : BitVec 64 → BitVec 64 → Option (BitVec 64)),
      VIn P v0 → VIn P v1 →
      OptRel (Agree P) ((eval σ v0).bind fun y => (eval σ v1).bind fun z => (g y z).map (σ.set x))
        ((eval σ' v0).bind fun y => (eval σ' v1).bind fun z => (g y z).map (σ'.set x)) := by
    intro v0 v1 g h0 h1
    rw [eval_agree h h0, eval_agree h h1]
    cases eval σ v0 with
    | none => exact .none
    | some y =>
      cases eval σ v1 with
      | none => exact .none
      | some z =>
        simp only [Option.bind_some]
        cases g y z with
        | none => exact .none
        | some r => exact .some _ _ (h.set x r)
  have one : ∀ {v0 : Val} (g : BitVec 64 → Option (BitVec 64)), VIn P v0 →
      OptRel (Agree P) ((eval σ v0).bind fun y => (g y).map (σ.set x))
        ((eval σ' v0).bind fun y => (g y).map (σ'.set x)) := by
    intro v0 g h0
    rw [eval_agree h h0]
    cases eval σ v0 with
    | none => exact .none
    | some y =>
      simp only [Option.bind_some]
      cases g y with
      | none => exact .none
      | some r => exact .some _ _ (h.set x r)
  have bin : ∀ (o : Option Verif.Bpf.AluOp) (w : Option Bool), OptRel (Agree P)
      (match vals with
        | [v0, v1] => do
          let o ← o
          let w ← w
          let y ← eval σ v0
          let z ← eval σ v1
          some (σ.set x (Bpf.alu w o y z))
        | _ => none)
      (match vals with
        | [v0, v1] => do
          let o ← o
          let w ← w
          let y ← eval σ' v0
          let z ← eval σ' v1
          some (σ'.set x (Bpf.alu w o y z))
        | _ => none) := by
    intro o w
    rcases vals with _ | ⟨v0, _ | ⟨v1, _ | ⟨_, _⟩⟩⟩ <;> try exact .none
    cases o with
    | none => exact .none
    | some o =>
      cases w with
      | none => exact .none
      | some w => exact two (fun y z => some (Bpf.alu w o y z)) (hv v0 (by simp)) (hv v1 (by simp))
  have b := bin (Flat.aluOp op) (Flat.width aluOp)
  cases op <;> dsimp only [exec] <;> try (rcases vals with _ | ⟨v0, _ | ⟨v1, _ | ⟨_, _⟩⟩⟩ <;> exact b)
  case alloc => exact .some _ _ h
  case allocarray => exact .some _ _ (h.set _ _)
  case getelemptr =>
    split
    · rename_i v0 v1
      exact two (fun o b => some (b + o)) (hv v0 (by simp)) (hv v1 (by simp))
    · exact .none
  case store =>
    split
    · rename_i a v
      rw [eval_agree h (hv v (by simp))]
      cases eval σ v with
      | none => exact .none
      | some y =>
        refine .some _ _ ⟨h.env, fun z hz => ?_, h.mem, h.trace⟩
        show (if z = a then y else σ'.var z) = (if z = a then y else σ.var z)
        rw [h.var z hz]
    · exact .none
  case load =>
    split
    · rename_i a
      rw [h.var a (hv (.insn a) (by simp) a rfl)]
      exact .some _ _ (h.set _ _)
    · exact .none
  case loadimm => exact .some _ _ (h.set _ _)
  case loadraw =>
    rw [eval_agree h (ha (by simp)), h.mem]
    cases eval σ addr with
    | none => exact .none
    | some a =>
      cases Flat.bytes vrType with
      | none => exact .none
      | some n => exact .some _ _ (h.set _ _)
  case storeraw =>
    split
    · rename_i v
      rw [eval_agree h (ha (by simp)), eval_agree h (hv v (by simp)), h.mem]
      cases eval σ addr with
      | none => exact .none
      | some a =>
        cases Flat.bytes vrType with
        | none => exact .none
        | some n =>
          cases eval σ v with
          | none => exact .none
          | some y => exact .some _ _ ⟨h.env, h.var, rfl, h.trace⟩
    · exact .none
  case neg =>
    split
    · rename_i v
      rw [eval_agree h (hv v (by simp))]
      cases eval σ v with
      | none => exact .none
      | some y =>
        cases Flat.width aluOp with
        | none => exact .none
        | some w => exact .some _ _ (h.set _ _)
    · exact .none
  case htobe =>
    split
    · rename_i v
      rw [eval_agree h (hv v (by simp))]
      cases eval σ v with
      | none => exact .none
      | some y =>
        simp only [Option.bind_eq_bind, Option.bind_some]
        cases Bpf.swapVal true aux y with
        | none => exact .none
        | some z => exact .some _ _ (h.set _ _)
    · exact .none
  case htole =>
    split
    · rename_i v
      rw [eval_agree h (hv v (by simp))]
      cases eval σ v with
      | none => exact .none
      | some y =>
        simp only [Option.bind_eq_bind, Option.bind_some]
        cases Bpf.swapVal false aux y with
        | none => exact .none
        | some z => exact .some _ _ (h.set _ _)
    · exact .none
  case assign =>
    split
    · rename_i v
      exact one (fun y => some (if aluOp = .w32 then Flat.truncBytes 4 y else y)) (hv v (by simp))
    · exact .none
  case call =>
    rw [evalAll_agree h hv]
    cases evalAll σ vals with
    | none => exact .none
    | some as =>
      refine .some _ _ ?_
      rw [h.mem, h.trace]
      exact ⟨(h.set x _).env, h.var, rfl, rfl⟩


/-- An instruction writes its own cell only. -/
theorem exec_env {W : World} {x : Nat} {i : Insn} {σ τ : St} (h : exec W x i σ = some τ) {y : Nat} (hy : y ≠ x) :
    τ.env y = σ.env y := by
  have st : ∀ v, (σ.set x v).env y = σ.env y := fun v => by simp [St.set, hy]
  obtain ⟨op, vals, phi, addr, addrOff, addrKind, aluOp, vrType, bb1, bb2, aux, immKind, imm64⟩ := i
  have bin : ∀ (o : Option Bpf.AluOp) (w : Option Bool),
      (match vals with
        | [v0, v1] => do
          let o ← o
          let w ← w
          let y ← eval σ v0
          let z ← eval σ v1
          some (σ.set x (Bpf.alu w o y z))
        | _ => none) = some τ → τ.env y = σ.env y := by
    intro o w h
    split at h
    · simp only [Option.bind_eq_bind, Option.bind_eq_some_iff] at h
      obtain ⟨_, _, _, _, _, _, _, _, h⟩ := h
      cases h; exact st _
    · cases h
  have b := bin (Flat.aluOp op) (Flat.width aluOp)
  cases op <;> dsimp only [exec] at h <;> try (rcases vals with _ | ⟨v0, _ | ⟨v1, _ | ⟨_, _⟩⟩⟩ <;> exact b h)
  case alloc => cases h; rfl
  case allocarray => cases h; exact st _
  case loadimm => cases h; exact st _
  case load =>
    split at h
    · cases h; exact st _
    · cases h
  case loadraw =>
    simp only [Option.bind_eq_bind, Option.bind_eq_some_iff] at h
    obtain ⟨_, _, _, _, h⟩ := h
    cases h; exact st _
  case call =>
    simp only [Option.bind_eq_bind, Option.bind_eq_some_iff] at h
    obtain ⟨_, _, h⟩ := h
    cases h; exact st _
  case storeraw =>
    split at h
    · simp only [Option.bind_eq_bind, Option.bind_eq_some_iff] at h
      obtain ⟨_, _, _, _, _, _, h⟩ := h
      cases h; rfl
    · cases h
  case store =>
    split at h
    · simp only [Option.bind_eq_bind, Option.bind_eq_some_iff] at h
      obtain ⟨_, _, h⟩ := h
      cases h; rfl
    · cases h
  case assign =>
    split at h
    · simp only [Option.bind_eq_bind, Option.bind_eq_some_iff] at h
      obtain ⟨_, _, h⟩ := h
      cases h; exact st _
    · cases h
  all_goals
    split at h
    · simp only [Option.bind_eq_bind, Option.bind_eq_some_iff] at h
      obtain ⟨_, _, _, _, h⟩ := h
      cases h; exact st _
    · cases h

/-- Variables other than the one stored to are unchanged. -/
theorem exec_var {W : World} {x : Nat} {i : Insn} {σ τ : St} (h : exec W x i σ = some τ) {y : Nat}
    (hy : ∀ v ∈ i.vals, v ≠ .insn y) : τ.var y = σ.var y := by
  obtain ⟨op, vals, phi, addr, addrOff, addrKind, aluOp, vrType, bb1, bb2, aux, immKind, imm64⟩ := i
  dsimp only at hy
  have bin : ∀ (o : Option Bpf.AluOp) (w : Option Bool),
      (match vals with
        | [v0, v1] => do
          let o ← o
          let w ← w
          let y ← eval σ v0
          let z ← eval σ v1
          some (σ.set x (Bpf.alu w o y z))
        | _ => none) = some τ → τ.var y = σ.var y := by
    intro o w h
    split at h
    · simp only [Option.bind_eq_bind, Option.bind_eq_some_iff] at h
      obtain ⟨_, _, _, _, _, _, _, _, h⟩ := h
      cases h; rfl
    · cases h
  have b := bin (Flat.aluOp op) (Flat.width aluOp)
  cases op <;> dsimp only [exec] at h <;>
    try (rcases vals with _ | ⟨v0, _ | ⟨v1, _ | ⟨_, _⟩⟩⟩ <;> exact b h)
  case alloc => cases h; rfl
  case allocarray => cases h; rfl
  case loadimm => cases h; rfl
  case load =>
    split at h
    · cases h; rfl
    · cases h
  case loadraw =>
    simp only [Option.bind_eq_bind, Option.bind_eq_some_iff] at h
    obtain ⟨_, _, _, _, h⟩ := h
    cases h; rfl
  case call =>
    simp only [Option.bind_eq_bind, Option.bind_eq_some_iff] at h
    obtain ⟨_, _, h⟩ := h
    cases h; rfl
  case storeraw =>
    split at h
    · simp only [Option.bind_eq_bind, Option.bind_eq_some_iff] at h
      obtain ⟨_, _, _, _, _, _, h⟩ := h
      cases h; rfl
    · cases h
  case store =>
    split at h
    · rename_i a v
      simp only [Option.bind_eq_bind, Option.bind_eq_some_iff] at h
      obtain ⟨_, _, h⟩ := h
      cases h
      have : y ≠ a := fun e => hy (.insn a) (by simp) (by rw [e])
      simp [this]
    · cases h
  case assign =>
    split at h
    · simp only [Option.bind_eq_bind, Option.bind_eq_some_iff] at h
      obtain ⟨_, _, h⟩ := h
      cases h; rfl
    · cases h
  all_goals
    split at h
    · simp only [Option.bind_eq_bind, Option.bind_eq_some_iff] at h
      obtain ⟨_, _, _, _, h⟩ := h
      cases h; rfl
    · cases h

theorem taken_agree {P : Nat → Prop} {σ σ' : St} (h : Agree P σ σ') {i : Insn} (hi : InsIn P i) :
    taken i σ' = taken i σ := by
  obtain ⟨hv, _⟩ := hi
  obtain ⟨op, vals, phi, addr, addrOff, addrKind, aluOp, vrType, bb1, bb2, aux, immKind, imm64⟩ := i
  dsimp only [taken] at hv ⊢
  rcases vals with _ | ⟨v0, _ | ⟨v1, _ | ⟨_, _⟩⟩⟩ <;> try rfl
  dsimp only
  rw [eval_agree h (hv v0 (by simp)), eval_agree h (hv v1 (by simp))]

theorem phiVal_agree {P : Nat → Prop} {σ σ' : St} (h : Agree P σ σ') {i : Insn} (hi : ∀ o ∈ i.phi, VIn P o.2) (p : Nat) :
    phiVal i p σ' = phiVal i p σ := by
  unfold phiVal
  cases e : i.phi.find? (fun o => o.1 == p) with
  | none => rfl
  | some o => exact eval_agree h (hi o (List.mem_of_find?_eq_some e))

/-- Lock step: the two functions have the same blocks and the instruction called `x` does the same in both. -/
structure Lock (W : World) (R : St → St → Prop) (f g : Fn) (x : Nat) : Prop where
  op : (g.insn x).op = (f.insn x).op
  bb1 : (g.insn x).bb1 = (f.insn x).bb1
  bb2 : (g.insn x).bb2 = (f.insn x).bb2
  exec : ∀ σ σ', R σ σ' → (f.insn x).op ≠ .phi → OptRel R (exec W x (f.insn x) σ) (exec W x (g.insn x) σ')
  taken : ∀ σ σ', R σ σ' → (f.insn x).op.condJmp = true → taken (g.insn x) σ' = taken (f.insn x) σ
  ret : ∀ σ σ', R σ σ' → (f.insn x).op = .ret → (g.insn x).vals.map (eval σ') = (f.insn x).vals.map (eval σ)
  phi : ∀ σ σ', R σ σ' → (f.insn x).op = .phi → ∀ p, phiVal (g.insn x) p σ' = phiVal (f.insn x) p σ

/-- Writing the same value to the same cell keeps the states related. -/
def SetOk (R : St → St → Prop) (x : Nat) : Prop :=
  ∀ (σ σ' : St) (e e' : Nat → BitVec 64), R { σ with env := e } { σ' with env := e' } → ∀ v,
    R { σ with env := fun y => if y = x then v else e y } { σ' with env := fun y => if y = x then v else e' y }

variable {W : World} {R : St → St → Prop} {f g : Fn}

theorem phiAssign_lock {σ σ' : St} (h : R σ σ') (p : Nat) : ∀ (l : List Nat),
    (∀ x ∈ l, (f.insn x).op = .phi → Lock W R f g x ∧ SetOk R x) → (∀ x ∈ l, (f.insn x).op = .phi) →
    OptRel (fun e e' => R { σ with env := e } { σ' with env := e' }) (phiAssign f p σ l) (phiAssign g p σ' l)
  | [], _, _ => .some _ _ h
  | x :: xs, hl, hp => by
    have hx := hl x (by simp) (hp x (by simp))
    simp only [phiAssign, hx.1.phi σ σ' h (hp x (by simp)) p]
    cases phiVal (f.insn x) p σ with
    | none => exact .none
    | some v =>
      have ih := phiAssign_lock h p xs (fun y hy => hl y (by simp [hy])) (fun y hy => hp y (by simp [hy]))
      simp only [Option.bind_eq_bind, Option.bind_some]
      revert ih
      generalize phiAssign f p σ xs = a
      generalize phiAssign g p σ' xs = a'
      intro ih
      cases ih with
      | none => exact .none
      | some e e' he => exact .some _ _ (hx.2 σ σ' e e' he v)

theorem takeWhile_mem {α : Type} (p : α → Bool) : ∀ (l : List α) (x : α), x ∈ l.takeWhile p → x ∈ l ∧ p x = true
  | [], x, h => by simp at h
  | y :: ys, x, h => by
    by_cases hy : p y = true
    · rw [List.takeWhile_cons_of_pos hy] at h
      rcases List.mem_cons.1 h with rfl | h
      · exact ⟨by simp, hy⟩
      · exact ⟨List.mem_cons_of_mem _ (takeWhile_mem p ys x h).1, (takeWhile_mem p ys x h).2⟩
    · rw [List.takeWhile_cons_of_neg hy] at h; simp at h

theorem takeWhile_congr {α : Type} {p q : α → Bool} : ∀ {l : List α}, (∀ x ∈ l, p x = q x) →
    l.takeWhile p = l.takeWhile q ∧ l.dropWhile p = l.dropWhile q
  | [], _ => ⟨rfl, rfl⟩
  | y :: ys, h => by
    have ih := takeWhile_congr (l := ys) fun x hx => h x (by simp [hx])
    simp only [List.takeWhile_cons, List.dropWhile_cons, h y (by simp), ih.1, ih.2, and_self]

/-- Steps that go to the same place with related states. -/
inductive RelStep (R : St → St → Prop) : Step → Step → Prop
  | goto (b : Nat) (rest : List Nat) (σ σ' : St) : R σ σ' → RelStep R (.goto b rest σ) (.goto b rest σ')
  | done (x : BitVec 64) : RelStep R (.done x) (.done x)
  | thrown : RelStep R .thrown .thrown
  | stuck : RelStep R .stuck .stuck

theorem enter_lock (hb : g.body = f.body) (hl : ∀ b, ∀ x ∈ f.body b, Lock W R f g x ∧ SetOk R x)
    {σ σ' : St} (h : R σ σ') (p b : Nat) : RelStep R (enter f p b σ) (enter g p b σ') := by
  have e := takeWhile_congr (l := f.body b) (p := fun x => (g.insn x).op == .phi) (q := fun x => (f.insn x).op == .phi)
    fun x hx => by rw [(hl b x hx).1.op]
  have e1 : phisOf g b = phisOf f b := by unfold phisOf; rw [hb]; exact e.1
  have e2 : codeOf g b = codeOf f b := by unfold codeOf; rw [hb]; exact e.2
  have hm := fun x => takeWhile_mem (fun x => (f.insn x).op == .phi) (f.body b) x
  have := phiAssign_lock (W := W) (f := f) (g := g) h p (phisOf f b) (fun x hx _ => hl b x (hm x hx).1)
    (fun x hx => by simpa using (hm x hx).2)
  unfold enter
  rw [e1, e2]
  revert this
  generalize phiAssign f p σ (phisOf f b) = a
  generalize phiAssign g p σ' (phisOf f b) = a'
  intro this
  cases this with
  | none => exact .stuck
  | some e e' he => exact .goto _ _ _ _ he

theorem step_lock (hb : g.body = f.body) (hs : g.succs = f.succs)
    (hl : ∀ b, ∀ x ∈ f.body b, Lock W R f g x ∧ SetOk R x)
    {σ σ' : St} (h : R σ σ') (b : Nat) (rest : List Nat) (hr : ∀ x ∈ rest, x ∈ f.body b) :
    RelStep R (step W f b rest σ) (step W g b rest σ') := by
  cases rest with
  | nil =>
    simp only [step, hs]
    split
    · exact enter_lock hb hl h _ _
    · exact .stuck
  | cons x rest =>
    have hx := (hl b x (hr x (by simp))).1
    simp only [step, hx.op, hx.bb1, hx.bb2]
    split
    · exact enter_lock hb hl h _ _
    · split
      · rename_i hc
        rw [hx.taken σ σ' h hc]
        split
        · exact enter_lock hb hl h _ _
        · exact enter_lock hb hl h _ _
        · exact .stuck
      · split
        · rename_i hc
          have hv := hx.ret σ σ' h hc
          rcases h1 : (f.insn x).vals with _ | ⟨v, _ | ⟨v', t⟩⟩
          · rw [h1] at hv; simp at hv; rw [hv]; exact .stuck
          · rw [h1] at hv
            obtain ⟨w, t', e1, e2, e3⟩ := List.map_eq_cons_iff.1 hv
            simp at e3; subst e3; rw [e1]; simp only [e2]
            cases eval σ v with
            | none => exact .stuck
            | some y => exact .done y
          · rw [h1] at hv
            obtain ⟨w, t', e1, e2, e3⟩ := List.map_eq_cons_iff.1 hv
            obtain ⟨w', t'', e1', e2', e3'⟩ := List.map_eq_cons_iff.1 e3
            subst e1'; rw [e1]; exact .stuck
        · split
          · exact .thrown
          · split
            · exact .stuck
            · rename_i hp
              have := hx.exec σ σ' h hp
              revert this
              generalize exec W x (f.insn x) σ = a
              generalize exec W x (g.insn x) σ' = a'
              intro this
              cases this with
              | none => exact .stuck
              | some a b hab => exact .goto _ _ _ _ hab

theorem step_rest {W : World} {f : Fn} {b b' : Nat} {rest rest' : List Nat} {σ σ' : St}
    (h : step W f b rest σ = .goto b' rest' σ') (hr : ∀ x ∈ rest, x ∈ f.body b) : ∀ x ∈ rest', x ∈ f.body b' := by
  have he : ∀ p c, enter f p c σ = .goto b' rest' σ' → ∀ x ∈ rest', x ∈ f.body b' := by
    intro p c h
    unfold enter at h
    split at h
    · cases h
      intro x hx
      exact (List.dropWhile_suffix _).subset hx
    · cases h
  cases rest with
  | nil =>
    simp only [step] at h
    split at h
    · exact he _ _ h
    · cases h
  | cons x rest =>
    simp only [step] at h
    split at h
    · exact he _ _ h
    · split at h
      · split at h
        · exact he _ _ h
        · exact he _ _ h
        · cases h
      · split at h
        · split at h
          · split at h <;> cases h
          · cases h
        · split at h
          · cases h
          · split at h
            · cases h
            · split at h
              · cases h; exact fun y hy => hr y (by simp [hy])
              · cases h

theorem run_lock (hb : g.body = f.body) (hs : g.succs = f.succs)
    (hl : ∀ b, ∀ x ∈ f.body b, Lock W R f g x ∧ SetOk R x) : ∀ (n : Nat) (b : Nat) (rest : List Nat) (σ σ' : St),
    R σ σ' → (∀ x ∈ rest, x ∈ f.body b) → RelRes R (run W f n b rest σ) (run W g n b rest σ')
  | 0, b, rest, σ, σ', h, _ => .running _ _ _ _ _ _ h
  | n + 1, b, rest, σ, σ', h, hr => by
    have := step_lock hb hs hl h b rest hr
    have hk := fun b' rest' τ => step_rest (W := W) (f := f) (b := b) (b' := b') (rest := rest) (rest' := rest') (σ := σ) (σ' := τ)
    simp only [run]
    revert this hk
    generalize step W f b rest σ = s
    generalize step W g b rest σ' = s'
    intro this hk
    cases this with
    | goto b' rest' τ τ' hR => exact run_lock hb hs hl n b' rest' τ τ' hR (hk b' rest' τ rfl hr)
    | done x => exact .done _ _ _ h
    | thrown => exact .thrown _ _ h
    | stuck => exact .stuck

theorem RelRes.trans {Q : St → St → Prop} {R : St → St → Prop} {a b c : Res} (h1 : RelRes Q a b) (h2 : RelRes R b c) :
    RelRes (fun σ τ => ∃ ρ, Q σ ρ ∧ R ρ τ) a c := by
  cases h1 with
  | done x σ σ' h => cases h2 with | done _ _ σ'' h' => exact .done _ _ _ ⟨_, h, h'⟩
  | thrown σ σ' h => cases h2 with | thrown _ σ'' h' => exact .thrown _ _ ⟨_, h, h'⟩
  | running b c r s σ σ' h => cases h2 with | running _ d _ t _ σ'' h' => exact .running _ _ _ _ _ _ ⟨_, h, h'⟩
  | stuck => cases h2; exact .stuck

theorem RelRes.mono {Q R : St → St → Prop} (hm : ∀ σ τ, Q σ τ → R σ τ) {a b : Res} (h : RelRes Q a b) : RelRes R a b := by
  cases h with
  | done x σ σ' h => exact .done _ _ _ (hm _ _ h)
  | thrown σ σ' h => exact .thrown _ _ (hm _ _ h)
  | running b c r s σ σ' h => exact .running _ _ _ _ _ _ (hm _ _ h)
  | stuck => exact .stuck

theorem vals_ne_of_refs {i : Insn} {y : Nat} (h : refs i y = 0) : ∀ v ∈ i.vals, v ≠ .insn y := by
  intro v hv e
  subst e
  have : 0 < i.vals.count (.insn y) := List.count_pos_iff.2 hv
  unfold refs at h; omega

theorem addr_ne_of_refs {i : Insn} {y : Nat} (h : refs i y = 0) (hr : i.op = .loadraw ∨ i.op = .storeraw) :
    i.addr ≠ .insn y := by
  intro e
  unfold refs at h
  have : (if (i.op = .loadraw ∨ i.op = .storeraw) ∧ i.addr = .insn y then 1 else 0) = 1 := if_pos ⟨hr, e⟩
  omega

theorem phi_ne_of_refs {i : Insn} {y : Nat} (h : refs i y = 0) (hr : i.op = .phi) : ∀ o ∈ i.phi, o.2 ≠ .insn y := by
  intro o ho e
  unfold refs at h
  rw [if_pos hr] at h
  have : 0 < i.phi.countP (fun o => o.2 == .insn y) := List.countP_pos_iff.2 ⟨o, ho, by simp [e]⟩
  omega

theorem map_id_of {α : Type} {g : α → α} : ∀ {l : List α}, (∀ x ∈ l, g x = x) → l.map g = l
  | [], _ => rfl
  | y :: ys, h => by rw [List.map_cons, h y (by simp), map_id_of (l := ys) fun x hx => h x (by simp [hx])]

end Verif.IR
