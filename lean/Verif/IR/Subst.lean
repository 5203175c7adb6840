import Verif.IR.Erase
/-!
# Replacing operands
-/
namespace Verif.IR
open Verif Verif.Edit

/-- The operand `w` of `i` is replaced by `s w`, which has the same value. -/
structure SubIn (P : Nat → Prop) (s : Val → Val) (i : Insn) (σ σ' : St) : Prop where
  vals : ∀ w ∈ i.vals, eval σ' (s w) = eval σ w
  addr : raw i.op = true → eval σ' (s i.addr) = eval σ i.addr
  var : i.op = .load ∨ i.op = .store → ∀ w, i.vals.head? = some w → s w = w ∧ VIn P w

theorem evalAll_map {s : Val → Val} {σ σ' : St} : ∀ {l : List Val}, (∀ w ∈ l, eval σ' (s w) = eval σ w) → evalAll σ' (l.map s) = evalAll σ l
  | [], _ => rfl
  | v :: vs, hl => by
    simp only [List.map_cons, evalAll, hl v (by simp), evalAll_map (l := vs) (fun w hw => hl w (by simp [hw]))]

theorem exec_map {P : Nat → Prop} {s : Val → Val} {σ σ' : St} (h : Agree P σ σ') (W : World) (x : Nat) {i : Insn}
    (hi : SubIn P s i σ σ') : OptRel (Agree P) (exec W x i σ) (exec W x (mapOps s i) σ') := by
  obtain ⟨hv, ha, hvar⟩ := hi
  obtain ⟨op, vals, phi, addr, addrOff, addrKind, aluOp, vrType, bb1, bb2, aux, immKind, imm64⟩ := i
  dsimp only [mapOps] at hv ha hvar ⊢
  have two : ∀ {v0 v1 : Val} (g : BitVec 64 → BitVec 64 → Option (BitVec 64)),
      v0 ∈ vals → v1 ∈ vals →
      OptRel (Agree P) ((eval σ v0).bind fun y => (eval σ v1).bind fun z => (g y z).map (σ.set x))
        ((eval σ' (s v0)).bind fun y => (eval σ' (s v1)).bind fun z => (g y z).map (σ'.set x)) := by
    intro v0 v1 g h0 h1
    rw [hv v0 h0, hv v1 h1]
    cases eval σ v0 with
    | none => exact .none
    | some y =>
      cases eval σ v1 with
      | none => exact .none
      | some z =>
        simp only [Option.bind_some]
        cases g y z with
        | none => exact .none
        | some r => exact .some _ _ (h.set x r)
  have bin : ∀ (o : Option Verif.Bpf.AluOp) (w : Option Bool), OptRel (Agree P)
      (match vals with
        | [v0, v1] => do
          let o ← o
          let w ← w
          let y ← eval σ v0
          let z ← eval σ v1
          some (σ.set x (Bpf.alu w o y z))
        | _ => none)
      (match vals.map s with
        | [v0, v1] => do
          let o ← o
          let w ← w
          let y ← eval σ' v0
          let z ← eval σ' v1
          some (σ'.set x (Bpf.alu w o y z))
        | _ => none) := by
    intro o w
    rcases vals with _ | ⟨v0, _ | ⟨v1, _ | ⟨_, _⟩⟩⟩ <;> try exact .none
    cases o with
    | none => exact .none
    | some o =>
      cases w with
      | none => exact .none
      | some w => exact two (fun y z => some (Bpf.alu w o y z)) (by simp) (by simp)
  have b := bin (Flat.aluOp op) (Flat.width aluOp)
  cases op <;> dsimp only [exec] <;> try (rcases vals with _ | ⟨v0, _ | ⟨v1, _ | ⟨_, _⟩⟩⟩ <;> exact b)
  case alloc => exact .some _ _ h
  case allocarray => exact .some _ _ (h.set _ _)
  case getelemptr =>
    rcases vals with _ | ⟨v0, _ | ⟨v1, _ | ⟨_, _⟩⟩⟩ <;> try exact .none
    exact two (fun o b => some (b + o)) (by simp) (by simp)
  case store =>
    rcases vals with _ | ⟨v0, _ | ⟨v1, _ | ⟨_, _⟩⟩⟩
    · exact .none
    · cases v0 <;> simp only [List.map_cons, List.map_nil] <;> (split <;> first | exact .none | (rename_i hh; simp at hh))
    · obtain ⟨e1, e2⟩ := hvar (.inr rfl) v0 rfl
      simp only [List.map_cons, List.map_nil, e1]
      cases v0 with
      | const => exact .none
      | undef => exact .none
      | insn a =>
        dsimp only
        rw [hv v1 (by simp)]
        cases eval σ v1 with
        | none => exact .none
        | some y =>
          refine .some _ _ ⟨h.env, fun z hz => ?_, h.mem, h.trace⟩
          show (if z = a then y else σ'.var z) = (if z = a then y else σ.var z)
          rw [h.var z hz]
    · cases v0 <;> simp only [List.map_cons] <;> (split <;> first | exact .none | (rename_i hh; simp at hh))
  case load =>
    rcases vals with _ | ⟨v0, _ | ⟨v1, l⟩⟩
    · exact .none
    · obtain ⟨e1, e2⟩ := hvar (.inl rfl) v0 rfl
      simp only [List.map_cons, List.map_nil, e1]
      cases v0 with
      | const => exact .none
      | undef => exact .none
      | insn a =>
        dsimp only
        rw [h.var a (e2 a rfl)]
        exact .some _ _ (h.set _ _)
    · cases v0 <;> simp only [List.map_cons] <;> (split <;> first | exact .none | (rename_i hh; simp at hh))
  case loadimm => exact .some _ _ (h.set _ _)
  case loadraw =>
    have := ha rfl
    simp only [raw] at this ⊢
    simp only [Bool.or_eq_true, decide_eq_true_eq, reduceCtorEq, or_false, or_true, if_true, true_or] at this ⊢
    rw [this, h.mem]
    cases eval σ addr with
    | none => exact .none
    | some a =>
      cases Flat.bytes vrType with
      | none => exact .none
      | some n => exact .some _ _ (h.set _ _)
  case storeraw =>
    rcases vals with _ | ⟨v, _ | ⟨_, _⟩⟩ <;> try exact .none
    have := ha rfl
    simp only [raw] at this ⊢
    simp only [Bool.or_eq_true, decide_eq_true_eq, reduceCtorEq, or_false, or_true, if_true, true_or, List.map_cons, List.map_nil] at this ⊢
    rw [this, hv v (by simp), h.mem]
    cases eval σ addr with
    | none => exact .none
    | some a =>
      cases Flat.bytes vrType with
      | none => exact .none
      | some n =>
        cases eval σ v with
        | none => exact .none
        | some y => exact .some _ _ ⟨h.env, h.var, rfl, h.trace⟩
  case neg =>
    rcases vals with _ | ⟨v, _ | ⟨_, _⟩⟩ <;> try exact .none
    simp only [List.map_cons, List.map_nil]
    rw [hv v (by simp)]
    cases eval σ v with
    | none => exact .none
    | some y =>
      cases Flat.width aluOp with
      | none => exact .none
      | some w => exact .some _ _ (h.set _ _)
  case htobe =>
    rcases vals with _ | ⟨v, _ | ⟨_, _⟩⟩ <;> try exact .none
    simp only [List.map_cons, List.map_nil]
    rw [hv v (by simp)]
    cases eval σ v with
    | none => exact .none
    | some y =>
      simp only [Option.bind_eq_bind, Option.bind_some]
      cases Bpf.swapVal true aux y with
      | none => exact .none
      | some w => exact .some _ _ (h.set _ _)
  case htole =>
    rcases vals with _ | ⟨v, _ | ⟨_, _⟩⟩ <;> try exact .none
    simp only [List.map_cons, List.map_nil]
    rw [hv v (by simp)]
    cases eval σ v with
    | none => exact .none
    | some y =>
      simp only [Option.bind_eq_bind, Option.bind_some]
      cases Bpf.swapVal false aux y with
      | none => exact .none
      | some w => exact .some _ _ (h.set _ _)
  case assign =>
    rcases vals with _ | ⟨v, _ | ⟨_, _⟩⟩ <;> try exact .none
    simp only [List.map_cons, List.map_nil]
    rw [hv v (by simp)]
    cases eval σ v with
    | none => exact .none
    | some y => exact .some _ _ (h.set _ _)
  case call =>
    rw [evalAll_map hv]
    cases evalAll σ vals with
    | none => exact .none
    | some as =>
      simp only [Option.bind_eq_bind, Option.bind_some]
      rw [h.mem, h.trace]
      refine .some _ _ ⟨(h.set x _).env, h.var, rfl, rfl⟩

theorem taken_map {s : Val → Val} {σ σ' : St} {i : Insn} (hv : ∀ w ∈ i.vals, eval σ' (s w) = eval σ w) :
    taken (mapOps s i) σ' = taken i σ := by
  obtain ⟨op, vals, phi, addr, addrOff, addrKind, aluOp, vrType, bb1, bb2, aux, immKind, imm64⟩ := i
  dsimp only [taken, mapOps] at hv ⊢
  rcases vals with _ | ⟨v0, _ | ⟨v1, _ | ⟨_, _⟩⟩⟩ <;> try rfl
  dsimp only [List.map]
  rw [hv v0 (by simp), hv v1 (by simp)]

theorem phiVal_map {s : Val → Val} {σ σ' : St} {i : Insn} {p : Nat} (hp : i.op = .phi)
    (hv : ∀ w, (p, w) ∈ i.phi → eval σ' (s w) = eval σ w) : phiVal (mapOps s i) p σ' = phiVal i p σ := by
  unfold phiVal mapOps
  dsimp only
  rw [if_pos hp, List.find?_map]
  have : ((fun o : Nat × Val => o.1 == p) ∘ fun (o : Nat × Val) => (o.1, s o.2)) = fun (o : Nat × Val) => o.1 == p := rfl
  rw [this]
  cases e : i.phi.find? (fun o => o.1 == p) with
  | none => rfl
  | some o =>
    have h1 := List.find?_some e
    have h2 := List.mem_of_find?_eq_some e
    simp only [beq_iff_eq] at h1
    show eval σ' (s o.2) = eval σ o.2
    exact hv o.2 (by rw [← h1]; exact h2)

end Verif.IR
