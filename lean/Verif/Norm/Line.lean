import Verif.Norm.Lemmas
/-! # Straight-line code inside a larger program (helper lemmas) -/
namespace Verif.Bpf

/-- The slots `L` occur in `code` at position `pc`. -/
def At (code : List Slot) (pc : Nat) (L : List Slot) : Prop :=
  ∀ k s, L[k]? = some s → code[pc + k]? = some s

theorem At.head {code pc s L} (h : At code pc (s :: L)) : code[pc]? = some s := h 0 s rfl

theorem At.tail {code pc s L} (h : At code pc (s :: L)) : At code (pc + 1) L := by
  intro k t hk
  have := h (k + 1) t (by simpa using hk)
  rwa [show pc + 1 + k = pc + (k + 1) by omega]

theorem At.left {code pc L M} (h : At code pc (L ++ M)) : At code pc L := by
  intro k t hk
  apply h
  rw [List.getElem?_append_left (by
    rcases Nat.lt_or_ge k L.length with h | h
    · exact h
    · simp [List.getElem?_eq_none h] at hk)]
  exact hk

theorem At.right {code pc L M} (h : At code pc (L ++ M)) : At code (pc + L.length) M := by
  intro k t hk
  have := h (L.length + k) t (by rw [List.getElem?_append_right (by omega)]; simpa using hk)
  rwa [show pc + L.length + k = pc + (L.length + k) by omega]

theorem step_ldimm {W : World} {code : List Slot} {pc : Nat} {s s2 : Slot} {d k : BitVec 4} {σ : St}
    (h1 : code[pc]? = some s) (h2 : code[pc + 1]? = some s2) (hd : decode s = some (.ldimm d k)) :
    step W code pc σ = .goto ((pc + 2 : Nat) : Int) (σ.set d.toNat (ldVal W k s.imm s2.imm)) := by
  have hp : ¬ ((pc : Int) < 0) := by omega
  simp [step, hp, h1, h2, hd]

theorem step_exec {W : World} {code : List Slot} {pc : Nat} {s : Slot} {i : Instr} {σ σ' : St}
    (h1 : code[pc]? = some s) (hd : decode s = some i) (hi : execInstr W i σ = some σ') :
    step W code pc σ = .goto ((pc + 1 : Nat) : Int) σ' := by
  have hp : ¬ ((pc : Int) < 0) := by omega
  cases i <;> first
    | (simp [execInstr] at hi; done)
    | (simp only [step, if_neg hp, Int.toNat_natCast, h1, hd, hi]; simp)

theorem step_exit {W : World} {code : List Slot} {pc : Nat} {s : Slot} {σ : St}
    (h1 : code[pc]? = some s) (hd : decode s = some .exit) :
    step W code pc σ = .done (σ.reg 0) σ := by
  have hp : ¬ ((pc : Int) < 0) := by omega
  simp [step, hp, h1, hd]

/-- Running straight-line code that sits at position `pc` of a program reaches its end in the state
computed by `execLine`. -/
theorem run_line {W : World} {code : List Slot} (L : List Slot) (σ : St) :
    ∀ (pc : Nat) (σ' : St), At code pc L → execLine W L σ = some σ' →
    ∃ n, ∀ m, run W code (n + m) pc σ = run W code m ((pc + L.length : Nat) : Int) σ' := by
  induction L, σ using execLine.induct (W := W) with
  | case1 σ => intro pc σ' _ h; simp [execLine] at h; subst h; exact ⟨0, by simp⟩
  | case2 s σ d k hd => intro pc σ' _ h; simp [execLine, hd] at h
  | case3 s σ d k hd s2 rest ih =>
    intro pc σ' hat h
    rw [execLine] at h
    simp only [hd] at h
    obtain ⟨n, hn⟩ := ih (pc + 2) σ' (by simpa using hat.tail.tail) h
    refine ⟨n + 1, fun m => ?_⟩
    rw [show n + 1 + m = (n + m) + 1 by omega, run, step_ldimm hat.head hat.tail.head hd]
    simp only
    rw [hn m]
    simp only [List.length_cons]
    rw [show pc + 2 + rest.length = pc + (rest.length + 1 + 1) by omega]
  | case4 s rest σ i hne hd hi =>
    intro pc σ' hat h
    rw [execLine.eq_def] at h
    cases i <;> simp_all
  | case5 s rest σ i hne hd τ hi ih =>
    intro pc σ' hat h
    have h' : execLine W rest τ = some σ' := by
      rw [execLine.eq_def] at h
      cases i <;> simp_all
    obtain ⟨n, hn⟩ := ih (pc + 1) σ' hat.tail h'
    refine ⟨n + 1, fun m => ?_⟩
    rw [show n + 1 + m = (n + m) + 1 by omega, run, step_exec hat.head hd hi]
    simp only
    rw [hn m]
    simp only [List.length_cons]
    rw [show pc + 1 + rest.length = pc + (rest.length + 1) by omega]
  | case6 s rest σ hd =>
    intro pc σ' hat h
    rw [execLine.eq_def] at h
    simp [hd] at h

theorem At.self (L : List Slot) : At L 0 L := by
  intro k s h; simpa using h

end Verif.Bpf
