import Verif.Spec.Msan
import Verif.IR.Sim
import Verif.IR.Steps
/-!
# Loads and stores, byte by byte
-/
namespace Verif.Msan
open Verif Verif.IR
open Verif.Bpf (Mem alu)

theorem addr_succ (a : BitVec 64) (i : Nat) : a + 1 + BitVec.ofNat 64 i = a + BitVec.ofNat 64 (i + 1) := by
  rw [BitVec.add_assoc, Nat.add_comm i 1, BitVec.ofNat_add]
  rfl

theorem load_congr : ∀ (n : Nat) {m m' : Mem} {a : BitVec 64}, (∀ i, i < n → m' (a + BitVec.ofNat 64 i) = m (a + BitVec.ofNat 64 i)) →
    Bpf.load n m' a = Bpf.load n m a
  | 0, _, _, _, _ => rfl
  | n + 1, m, m', a, h => by
    have h0 := h 0 (by omega)
    rw [BitVec.add_zero] at h0
    have h1 : Bpf.load n m' (a + 1) = Bpf.load n m (a + 1) := load_congr n (fun i hi => by rw [addr_succ]; exact h (i + 1) (by omega))
    rw [Bpf.load, Bpf.load, h0, h1]

theorem store_out : ∀ (n : Nat) {m : Mem} {a v b : BitVec 64}, (∀ i, i < n → b ≠ a + BitVec.ofNat 64 i) → Bpf.store n m a v b = m b
  | 0, _, _, _, _, _ => rfl
  | n + 1, m, a, v, b, h => by
    rw [Bpf.store, store_out n (fun i hi => by rw [addr_succ]; exact h (i + 1) (by omega))]
    have h0 := h 0 (by omega)
    rw [BitVec.add_zero] at h0
    rw [if_neg h0]

theorem store_congr_mem : ∀ (n : Nat) {m m' : Mem} {a v b : BitVec 64}, m' b = m b → Bpf.store n m' a v b = Bpf.store n m a v b
  | 0, _, _, _, _, _, h => h
  | n + 1, m, m', a, v, b, h => by
    rw [Bpf.store, Bpf.store]
    refine store_congr_mem n ?_
    split
    · rfl
    · exact h

theorem ofNat_ne {i : Nat} (h : i < 2 ^ 64) (h0 : 0 < i) (a : BitVec 64) : a + BitVec.ofNat 64 i ≠ a := by
  intro e
  have : BitVec.ofNat 64 i = 0 := by
    have := congrArg (fun b => b - a) e
    simpa [BitVec.add_comm a, BitVec.add_sub_cancel] using this
  have := congrArg BitVec.toNat this
  rw [BitVec.toNat_ofNat, Nat.mod_eq_of_lt h] at this
  simp at this
  omega

/-- The bytes stored are those of the value. -/
theorem store_in : ∀ (n : Nat), n < 2 ^ 64 → ∀ {m : Mem} {a v : BitVec 64} {i : Nat}, i < n →
    Bpf.store n m a v (a + BitVec.ofNat 64 i) = (v >>> (8 * i)).setWidth 8
  | 0, _, _, _, _, i, h => by omega
  | n + 1, hn, m, a, v, i, h => by
    rw [Bpf.store]
    cases i with
    | zero =>
      rw [BitVec.add_zero, store_out n (fun i hi => by
        rw [addr_succ]; exact (ofNat_ne (by omega) (by omega) a).symm), if_pos rfl]
      rfl
    | succ i =>
      rw [← addr_succ, store_in n (by omega) (by omega), ← BitVec.shiftRight_add]
      congr 2
      omega

theorem bytes_le {t : VrTy} {n : Nat} (h : Flat.bytes t = some n) : n ≤ 8 := by
  cases t <;> simp [Flat.bytes] at h <;> omega

/-- An offset 256 higher. -/
theorem off_add {o : BitVec 16} (h : o.toInt + 256 < 2 ^ 15) : (o + 256).signExtend 64 = o.signExtend 64 + 256 := by
  apply BitVec.eq_of_toInt_eq
  have hlo := BitVec.le_toInt o
  have h1 : (o + 256).toInt = o.toInt + 256 := by
    rw [BitVec.toInt_add]
    have : (256 : BitVec 16).toInt = 256 := by decide
    rw [this]
    exact Int.bmod_eq_of_le (by omega) (by omega)
  rw [BitVec.toInt_add, BitVec.toInt_signExtend_of_le (by omega), BitVec.toInt_signExtend_of_le (by omega), h1]
  have : (256 : BitVec 64).toInt = 256 := by decide
  rw [this]
  exact (Int.bmod_eq_of_le (by omega) (by omega)).symm

theorem shadow_up {p a : BitVec 64} (h : Below p a) : Shadow p (a + 256) := h

theorem shadow_down {p a : BitVec 64} (h : Shadow p a) : Below p (a - 256) := by
  unfold Below
  rw [BitVec.sub_add_cancel]
  exact h

theorem below_not {p a : BitVec 64} (h : Below p a) : ¬ Shadow p a := by
  intro h'
  unfold Below at h
  unfold Shadow at h'
  have e : a + 256 - p = (a - p) + 256 := by
    rw [BitVec.sub_eq_add_neg, BitVec.sub_eq_add_neg, BitVec.add_assoc, BitVec.add_comm 256, ← BitVec.add_assoc]
  rw [e, BitVec.toNat_add] at h
  have : (256 : BitVec 64).toNat = 256 := by decide
  rw [this] at h
  omega

/-- Memory only matters to loads, stores and calls. -/
theorem exec_mem {W : World} {x : Nat} {i : Insn} (h1 : i.op ≠ .loadraw) (h2 : i.op ≠ .storeraw) (h3 : i.op ≠ .call) (σ : St) (m : Mem) :
    exec W x i { σ with mem := m } = (exec W x i σ).map (fun τ => { τ with mem := m }) ∧ ∀ τ, exec W x i σ = some τ → τ.mem = σ.mem := by
  obtain ⟨op, vals, phi, addr, addrOff, addrKind, aluOp, vrType, bb1, bb2, aux, immKind, imm64⟩ := i
  have hev : ∀ v, eval { σ with mem := m } v = eval σ v := fun v => by cases v <;> rfl
  dsimp only at h1 h2 h3
  have hbin : ∀ (o : Option Bpf.AluOp) (w : Option Bool) (v0 v1 : Val),
      (do let o ← o; let w ← w; let y ← eval { σ with mem := m } v0; let z ← eval { σ with mem := m } v1
          some (St.set { σ with mem := m } x (alu w o y z))) =
      Option.map (fun τ : St => { τ with mem := m }) (do let o ← o; let w ← w; let y ← eval σ v0; let z ← eval σ v1; some (σ.set x (alu w o y z))) ∧
      ∀ τ, (do let o ← o; let w ← w; let y ← eval σ v0; let z ← eval σ v1; some (σ.set x (alu w o y z))) = some τ → τ.mem = σ.mem := by
    intro o w v0 v1
    rw [hev, hev]
    cases o <;> cases w <;> cases eval σ v0 <;> cases eval σ v1 <;> simp [St.set]
  rcases vals with _ | ⟨v0, _ | ⟨v1, _ | ⟨v2, r⟩⟩⟩ <;> cases op <;> first
    | exact absurd rfl h1
    | exact absurd rfl h2
    | exact absurd rfl h3
    | exact hbin _ _ _ _
    | (refine ⟨rfl, fun τ h => ?_⟩; cases h; rfl)
    | (refine ⟨rfl, fun τ h => ?_⟩; cases h; done)
    | (simp only [exec, hev]
       refine ⟨?_, fun τ h => ?_⟩
       · cases v0 <;> simp [eval, St.set]
       · revert h
         cases v0 <;> simp [eval, St.set] <;> rintro rfl <;> rfl)
    | skip
  · simp only [exec, hev]
    cases eval σ v0 <;> cases Flat.width aluOp <;> simp [St.set]
  · simp only [exec, hev]
    cases eval σ v0 with
    | none => simp
    | some y => cases h : Bpf.swapVal false aux y <;> simp [h, St.set]
  · simp only [exec, hev]
    cases eval σ v0 with
    | none => simp
    | some y => cases h : Bpf.swapVal true aux y <;> simp [h, St.set]
  · simp only [exec, hev]
    cases eval σ v0 <;> cases eval σ v1 <;> simp [St.set]
  · cases v0 with
    | insn a =>
      simp only [exec, hev]
      cases eval σ v1 <;> simp
    | const => simp [exec]
    | undef => simp [exec]

end Verif.Msan
