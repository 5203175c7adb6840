import Verif.Spec.Loc
import Verif.IR.Subst
/-!
# Lemmas: one instruction in states with equal operands
-/
namespace Verif.IR
open Verif Verif.Edit

/-- The value computed by an instruction depends on the values of its operands and on memory only. -/
theorem exec_out {W : World} {x : Nat} {i : Insn} {s : Val → Val} {σ σ' : St} (hm : σ'.mem = σ.mem)
    (hv : ∀ w ∈ i.vals, eval σ' (s w) = eval σ w) (ha : i.op = .loadraw → eval σ' (s i.addr) = eval σ i.addr)
    (hl : i.op = .load → ∀ a, i.vals = [.insn a] → s (.insn a) = .insn a ∧ σ'.var a = σ.var a)
    (hn : i.op = .load → ∀ w ∈ i.vals, (∃ a, s w = .insn a) → ∃ a, w = .insn a)
    (h1 : i.op ≠ .alloc) (h2 : i.op ≠ .call) (h3 : i.op ≠ .store) (h4 : i.op ≠ .storeraw) :
    (exec W x (mapOps s i) σ').map (·.env x) = (exec W x i σ).map (·.env x) := by
  obtain ⟨op, vals, phi, addr, addrOff, addrKind, aluOp, vrType, bb1, bb2, aux, immKind, imm64⟩ := i
  dsimp only [mapOps] at hv ha hl hn h1 h2 h3 h4 ⊢
  have st : ∀ (ρ : St) v, (ρ.set x v).env x = v := fun ρ v => by simp [St.set]
  have bin : ∀ (o : Option Bpf.AluOp) (w : Option Bool),
      (match vals.map s with
        | [v0, v1] => do
          let o ← o
          let w ← w
          let y ← eval σ' v0
          let z ← eval σ' v1
          some (σ'.set x (Bpf.alu w o y z))
        | _ => none).map (fun ρ : St => ρ.env x) =
      (match vals with
        | [v0, v1] => do
          let o ← o
          let w ← w
          let y ← eval σ v0
          let z ← eval σ v1
          some (σ.set x (Bpf.alu w o y z))
        | _ => none).map (fun ρ : St => ρ.env x) := by
    intro o w
    rcases vals with _ | ⟨v0, _ | ⟨v1, _ | ⟨_, _⟩⟩⟩ <;> try rfl
    simp only [List.map_cons, List.map_nil, hv v0 (by simp), hv v1 (by simp)]
    cases o
    · rfl
    cases w
    · rfl
    cases eval σ v0
    · rfl
    cases eval σ v1
    · rfl
    show some _ = some _
    simp only [st]
  have b := bin (Flat.aluOp op) (Flat.width aluOp)
  cases op <;> dsimp only [exec] <;> try (rcases vals with _ | ⟨v0, _ | ⟨v1, _ | ⟨_, _⟩⟩⟩ <;> exact b)
  case alloc => exact absurd rfl h1
  case call => exact absurd rfl h2
  case store => exact absurd rfl h3
  case storeraw => exact absurd rfl h4
  case allocarray => simp [st]
  case loadimm => simp [st]
  case getelemptr =>
    rcases vals with _ | ⟨v0, _ | ⟨v1, _ | ⟨_, _⟩⟩⟩ <;> try rfl
    simp only [List.map_cons, List.map_nil, hv v0 (by simp), hv v1 (by simp)]
    cases eval σ v0
    · rfl
    cases eval σ v1
    · rfl
    show some _ = some _
    simp only [st]
  case load =>
    rcases vals with _ | ⟨v0, _ | ⟨_, _⟩⟩
    · rfl
    · cases v0 with
      | insn a =>
        obtain ⟨e1, e2⟩ := hl rfl a rfl
        simp only [List.map_cons, List.map_nil, e1, e2]
        show some _ = some _
        simp only [st]
      | const k c ct bb =>
        simp only [List.map_cons, List.map_nil]
        split
        · rename_i a e
          obtain ⟨_, h⟩ := hn rfl (.const k c ct bb) (by simp) ⟨a, by simpa using e⟩
          cases h
        · rfl
      | undef =>
        simp only [List.map_cons, List.map_nil]
        split
        · rename_i a e
          obtain ⟨_, h⟩ := hn rfl .undef (by simp) ⟨a, by simpa using e⟩
          cases h
        · rfl
    · rcases v0 with _ | _ | _ <;> (simp only [List.map_cons]; cases s _ <;> rfl)
  case loadraw =>
    simp only [raw, decide_true, Bool.true_or, if_true]
    rw [ha rfl, hm]
    cases eval σ addr
    · rfl
    cases Flat.bytes vrType
    · rfl
    show some _ = some _
    simp only [st]
  case assign =>
    rcases vals with _ | ⟨v0, _ | ⟨_, _⟩⟩ <;> try rfl
    simp only [List.map_cons, List.map_nil, hv v0 (by simp)]
    cases eval σ v0
    · rfl
    show some _ = some _
    simp only [st]
  case neg =>
    rcases vals with _ | ⟨v0, _ | ⟨_, _⟩⟩ <;> try rfl
    simp only [List.map_cons, List.map_nil, hv v0 (by simp)]
    cases eval σ v0
    · rfl
    cases Flat.width aluOp
    · rfl
    show some _ = some _
    simp only [st]
  case htobe =>
    rcases vals with _ | ⟨v0, _ | ⟨_, _⟩⟩ <;> try rfl
    simp only [List.map_cons, List.map_nil, hv v0 (by simp)]
    cases eval σ v0 with
    | none => rfl
    | some y =>
      show (Option.bind (Bpf.swapVal true aux y) _).map _ = (Option.bind (Bpf.swapVal true aux y) _).map _
      cases Bpf.swapVal true aux y
      · rfl
      show some _ = some _
      simp only [st]
  case htole =>
    rcases vals with _ | ⟨v0, _ | ⟨_, _⟩⟩ <;> try rfl
    simp only [List.map_cons, List.map_nil, hv v0 (by simp)]
    cases eval σ v0 with
    | none => rfl
    | some y =>
      show (Option.bind (Bpf.swapVal false aux y) _).map _ = (Option.bind (Bpf.swapVal false aux y) _).map _
      cases Bpf.swapVal false aux y
      · rfl
      show some _ = some _
      simp only [st]

/-- The memory after a raw store depends on the values of its operands and on memory only. -/
theorem exec_mem {W : World} {x : Nat} {i : Insn} {s : Val → Val} {σ σ' : St} (hm : σ'.mem = σ.mem)
    (hv : ∀ w ∈ i.vals, eval σ' (s w) = eval σ w) (ha : eval σ' (s i.addr) = eval σ i.addr) (h4 : i.op = .storeraw) :
    (exec W x (mapOps s i) σ').map (·.mem) = (exec W x i σ).map (·.mem) := by
  obtain ⟨op, vals, phi, addr, addrOff, addrKind, aluOp, vrType, bb1, bb2, aux, immKind, imm64⟩ := i
  dsimp only [mapOps] at hv ha h4 ⊢
  subst h4
  dsimp only [exec, raw]
  simp only [decide_true, Bool.or_true, if_true]
  rcases vals with _ | ⟨v0, _ | ⟨_, _⟩⟩ <;> try rfl
  simp only [List.map_cons, List.map_nil, hv v0 (by simp), ha, hm]
  cases eval σ addr
  · rfl
  cases Flat.bytes vrType
  · rfl
  cases eval σ v0 <;> rfl

theorem taken_out {i : Insn} {s : Val → Val} {σ σ' : St} (hv : ∀ w ∈ i.vals, eval σ' (s w) = eval σ w) :
    taken (mapOps s i) σ' = taken i σ := by
  obtain ⟨op, vals, phi, addr, addrOff, addrKind, aluOp, vrType, bb1, bb2, aux, immKind, imm64⟩ := i
  dsimp only [mapOps, taken] at hv ⊢
  rcases vals with _ | ⟨v0, _ | ⟨v1, _ | ⟨_, _⟩⟩⟩ <;> try rfl
  simp only [List.map_cons, List.map_nil, hv v0 (by simp), hv v1 (by simp)]

end Verif.IR

namespace Verif.Loc
open Verif Verif.IR Verif.Edit

/-- Operands are replaced by `s`, places by `c`: an operand in `D` at the place `q` becomes one at the place `c q`. -/
structure Sub (D : Nat → Prop) (s : Val → Val) (l k c : Nat → Nat) : Prop where
  const : ∀ a b d e, s (.const a b d e) = .const a b d e
  undef : s .undef = .undef
  insn : ∀ y, D y → ∃ z, s (.insn y) = .insn z ∧ k z = c (l y)

theorem Sub.eval {D : Nat → Prop} {s : Val → Val} {l k c : Nat → Nat} (h : Sub D s l k c) {τ τ' : St} {v : Val} (hD : ∀ y, v = .insn y → D y)
    (hr : ∀ q ∈ place l v, τ'.cell (c q) = τ.cell q) : IR.eval (view k τ') (s v) = IR.eval (view l τ) v := by
  cases v with
  | const a b d e => rw [h.const]; rfl
  | undef => rw [h.undef]; rfl
  | insn y =>
    obtain ⟨z, e, hz⟩ := h.insn y (hD y rfl)
    rw [e]
    show some (τ'.cell (k z)) = some (τ.cell (l y))
    rw [hz, hr (l y) (by simp [place])]

/-- What an instruction does in two states. -/
structure Both (c : Nat → Nat) (w : List Nat) (τ τ' τ1 τ1' : St) : Prop where
  mem : τ1'.mem = τ1.mem
  trace : τ1'.trace = τ1.trace
  new : ∀ q ∈ w, τ1'.cell (c q) = τ1.cell q
  old : ∀ q, q ∉ w → τ1.cell q = τ.cell q
  old' : ∀ q, q ∉ w.map c → τ1'.cell q = τ'.cell q

theorem both_set {c : Nat → Nat} {q q' : Nat} {τ τ' : St} (v : BitVec 64) (hm : τ'.mem = τ.mem) (ht : τ'.trace = τ.trace)
    (hq : q' = c q) : Both c [q] τ τ' (τ.set q v) (τ'.set q' v) := by
  subst hq
  refine ⟨hm, ht, ?_, ?_, ?_⟩
  · intro r hr
    simp only [List.mem_singleton] at hr
    subst hr
    simp [St.set]
  · intro r hr
    simp only [List.mem_singleton] at hr
    simp [St.set, hr]
  · intro r hr
    simp only [List.map_cons, List.map_nil, List.mem_singleton] at hr
    simp [St.set, hr]

theorem exec_other {W : World} {l : Nat → Nat} {x : Nat} {i : Insn} {τ : St} (h1 : i.op ≠ .alloc) (h2 : i.op ≠ .call)
    (h3 : i.op ≠ .store) (h4 : i.op ≠ .storeraw) :
    exec W l x i τ = ((IR.exec W x i (view l τ)).map (·.env x)).map (τ.set (l x)) := by
  unfold exec
  split
  · rename_i h; exact absurd h h1
  · rename_i h; exact absurd h h2
  · rename_i h; exact absurd h h3
  · rename_i h; exact absurd h h4
  · cases IR.exec W x i (view l τ) <;> rfl

theorem exec_raw {W : World} {l : Nat → Nat} {x : Nat} {i : Insn} {τ : St} (h4 : i.op = .storeraw) :
    exec W l x i τ = ((IR.exec W x i (view l τ)).map (·.mem)).map (fun m => { τ with mem := m }) := by
  unfold exec
  rw [h4]
  dsimp only
  cases IR.exec W x i (view l τ) <;> rfl

theorem writes_other {l : Nat → Nat} {x : Nat} {i : Insn} (hc : control i.op = false) (h1 : i.op ≠ .alloc) (h2 : i.op ≠ .call)
    (h3 : i.op ≠ .store) (h4 : i.op ≠ .storeraw) : writes l x i = [l x] := by
  obtain ⟨op, vals, phi, addr, addrOff, addrKind, aluOp, vrType, bb1, bb2, aux, immKind, imm64⟩ := i
  cases op <;> simp_all [writes, control, Norm.Op.condJmp]

theorem argRegs_le {fid : BitVec 32} {q : Nat} (h : q ∈ argRegs fid) : q ≤ 5 := by
  have : q ∈ [1, 2, 3, 4, 5] := List.mem_of_mem_take h
  simp at this
  omega

/-- An instruction does the same in states with equal operands. -/
theorem exec_two {W : World} {D : Nat → Prop} {s : Val → Val} {l k c : Nat → Nat} (hs : Sub D s l k c) {x : Nat} {i : Insn} {τ τ' : St}
    (hD : ∀ v ∈ operands i, ∀ y, v = .insn y → D y)
    (hc : control i.op = false) (hx : k x = c (l x)) (hid : ∀ q, q ≤ 5 → c q = q) (hm : τ'.mem = τ.mem) (ht : τ'.trace = τ.trace)
    (hr : ∀ q ∈ reads l i, τ'.cell (c q) = τ.cell q)
    (hl : i.op = .load → ∀ a, i.vals = [.insn a] → s (.insn a) = .insn a) :
    (exec W l x i τ = none ∧ exec W k x (mapOps s i) τ' = none) ∨
    ∃ τ1 τ1', exec W l x i τ = some τ1 ∧ exec W k x (mapOps s i) τ' = some τ1' ∧ Both c (writes l x i) τ τ' τ1 τ1' := by
  have hDv : ∀ v ∈ i.vals, ∀ y, v = .insn y → D y := fun v hv => hD v (by unfold operands; simp [hv])
  have hDa : raw i.op = true → ∀ y, i.addr = .insn y → D y := fun hr => hD i.addr (by unfold operands; simp [hr])
  by_cases h1 : i.op = .alloc
  · refine Or.inr ⟨τ, τ', by simp [exec, h1], by simp [exec, mapOps_op, h1], ?_⟩
    have : writes l x i = [] := by simp [writes, h1]
    rw [this]
    exact ⟨hm, ht, by simp, by simp, by simp⟩
  by_cases h2 : i.op = .call
  · refine Or.inr ⟨doCall W.bpf i.aux τ, doCall W.bpf i.aux τ', by simp [exec, h2], by simp [exec, mapOps_op, h2]; rfl, ?_⟩
    have hw : writes l x i = [0, 1, 2, 3, 4, 5] := by simp [writes, h2]
    have hr' : reads l i = argRegs i.aux := by simp [reads, h2]
    rw [hr'] at hr
    have ea : (argRegs i.aux).map τ'.cell = (argRegs i.aux).map τ.cell := by
      refine List.map_congr_left (fun q hq => ?_)
      have := hr q hq
      rw [hid q (argRegs_le hq)] at this
      exact this
    rw [hw]
    refine ⟨by simp [doCall, hm, ht, ea], by simp [doCall, ht, ea], ?_, ?_, ?_⟩
    · intro q hq
      have : q ≤ 5 := by simp at hq; omega
      rw [hid q this]
      simp only [doCall, hm, ht, ea]
      by_cases h0 : q = 0
      · simp [h0]
      · have : 1 ≤ q ∧ q ≤ 5 := by omega
        simp [h0, this]
    · intro q hq
      have : 5 < q := by simp at hq; omega
      have a : q ≠ 0 := by omega
      have b : ¬ (1 ≤ q ∧ q ≤ 5) := by omega
      simp [doCall, a, b]
    · intro q hq
      have : 5 < q := by
        simp [hid] at hq; omega
      have a : q ≠ 0 := by omega
      have b : ¬ (1 ≤ q ∧ q ≤ 5) := by omega
      simp [doCall, a, b]
  by_cases h3 : i.op = .store
  · have hsp : ∀ v, s v = .undef ∨ (∃ a b d e, s v = .const a b d e) ∨ ∃ y, v = .insn y := by
      intro v
      cases v with
      | const a b d e => exact Or.inr (Or.inl ⟨a, b, d, e, hs.const ..⟩)
      | undef => exact Or.inl hs.undef
      | insn y => exact Or.inr (Or.inr ⟨y, rfl⟩)
    obtain ⟨op, vals, phi, addr, addrOff, addrKind, aluOp, vrType, bb1, bb2, aux, immKind, imm64⟩ := i
    dsimp only at h3 hr hDv ⊢
    subst h3
    dsimp only [exec, mapOps, writes, reads] at hr ⊢
    rcases vals with _ | ⟨v0, _ | ⟨v1, _ | ⟨_, _⟩⟩⟩
    · exact Or.inl ⟨rfl, rfl⟩
    · refine Or.inl ⟨?_, ?_⟩
      · split <;> simp_all
      · split <;> simp_all
    · cases v0 with
      | insn a =>
        obtain ⟨z, e, hz⟩ := hs.insn a (hDv (.insn a) (by simp) a rfl)
        have ev := hs.eval (τ := τ) (τ' := τ') (v := v1) (hDv v1 (by simp)) (fun q hq => hr q (by simpa using hq))
        simp only [List.map_cons, List.map_nil, e, ev]
        cases IR.eval (view l τ) v1 with
        | none => exact Or.inl ⟨rfl, rfl⟩
        | some y => exact Or.inr ⟨_, _, rfl, rfl, both_set y hm ht hz⟩
      | const a b d e =>
        refine Or.inl ⟨rfl, ?_⟩
        simp only [List.map_cons, List.map_nil, hs.const]
      | undef =>
        refine Or.inl ⟨rfl, ?_⟩
        simp only [List.map_cons, List.map_nil, hs.undef]
    · refine Or.inl ⟨?_, ?_⟩
      · split <;> simp_all
      · split <;> simp_all
  by_cases h4 : i.op = .storeraw
  · have hr1 : reads l i = i.vals.flatMap (place l) ++ place l i.addr := by simp [reads, h4]
    have e := exec_mem (W := W) (x := x) (i := i) (s := s) (σ := view l τ) (σ' := view k τ') hm
      (fun w hw => hs.eval (hDv w hw) (fun q hq => hr q (by rw [hr1]; exact List.mem_append_left _ (List.mem_flatMap.2 ⟨w, hw, hq⟩))))
      (hs.eval (hDa (by simp [raw, h4])) (fun q hq => hr q (by rw [hr1]; exact List.mem_append_right _ hq))) h4
    rw [exec_raw h4, exec_raw (i := mapOps s i) h4, e]
    have hw : writes l x i = [] := by simp [writes, h4]
    rw [hw]
    cases (IR.exec W x i (view l τ)).map (·.mem) with
    | none => exact Or.inl ⟨rfl, rfl⟩
    | some m => exact Or.inr ⟨_, _, rfl, rfl, rfl, ht, by simp, by simp, by simp⟩
  · have hrv : ∀ w ∈ i.vals, ∀ q ∈ place l w, i.op ≠ .loadraw → τ'.cell (c q) = τ.cell q := by
      intro w hw q hq hlr
      refine hr q ?_
      have : reads l i = i.vals.flatMap (place l) := by
        unfold reads
        split <;> simp_all
      rw [this]
      exact List.mem_flatMap.2 ⟨w, hw, hq⟩
    rw [exec_other h1 h2 h3 h4, exec_other (i := mapOps s i) h1 h2 h3 h4, writes_other hc h1 h2 h3 h4]
    have key : (IR.exec W x (mapOps s i) (view k τ')).map (·.env x) = (IR.exec W x i (view l τ)).map (·.env x) := by
      by_cases hlr : i.op = .loadraw
      · have hra : reads l i = place l i.addr := by simp [reads, hlr]
        have ea := hs.eval (τ := τ) (τ' := τ') (v := i.addr) (hDa (by simp [raw, hlr])) (fun q hq => hr q (by rw [hra]; exact hq))
        obtain ⟨op, vals, phi, addr, addrOff, addrKind, aluOp, vrType, bb1, bb2, aux, immKind, imm64⟩ := i
        dsimp only at hlr ea
        subst hlr
        dsimp only [mapOps, IR.exec, raw]
        simp only [decide_true, Bool.true_or, if_true]
        rw [ea]
        have hm' : (view k τ').mem = (view l τ).mem := hm
        rw [hm']
        cases IR.eval (view l τ) addr
        · rfl
        cases Flat.bytes vrType
        · rfl
        show some _ = some _
        simp [IR.St.set]
      · refine exec_out hm (fun w hw => hs.eval (hDv w hw) (fun q hq => hrv w hw q hq hlr)) (fun h => absurd h hlr) ?_ ?_ h1 h2 h3 h4
        · intro h a ha
          have e := hl h a ha
          refine ⟨e, ?_⟩
          obtain ⟨z, e', hz⟩ := hs.insn a (hDv (.insn a) (by rw [ha]; simp) a rfl)
          rw [e] at e'
          cases e'
          show τ'.cell (k a) = τ.cell (l a)
          rw [hz]
          exact hrv (.insn a) (by rw [ha]; simp) (l a) (by simp [place]) hlr
        · intro h w hw hx
          cases w with
          | insn y => exact ⟨y, rfl⟩
          | const a b d e => rw [hs.const] at hx; obtain ⟨_, h⟩ := hx; cases h
          | undef => rw [hs.undef] at hx; obtain ⟨_, h⟩ := hx; cases h
    rw [key]
    cases (IR.exec W x i (view l τ)).map (·.env x) with
    | none => exact Or.inl ⟨rfl, rfl⟩
    | some v => exact Or.inr ⟨_, _, rfl, rfl, both_set v hm ht hx⟩

end Verif.Loc
