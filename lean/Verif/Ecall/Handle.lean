import Verif.Ecall.Run
/-!
# The search for the ecall
-/
namespace Verif.Ecall
open Verif Verif.IR Verif.Edit Verif.Guard

theorem findEcall_none {f : Fn} : ∀ {l : List Nat}, (∀ x ∈ l, (f.insn x).op = .ecall → (f.insn x).aux ≠ 0) → findEcall f l = none
  | [], _ => rfl
  | x :: l, h => by
    rw [findEcall, if_neg (fun h1 => h x (by simp) h1.1 h1.2)]
    exact findEcall_none (fun y hy => h y (List.mem_cons_of_mem _ hy))

theorem findEcall_at {f : Fn} {e : Nat} (he : (f.insn e).op = .ecall) (h0 : (f.insn e).aux = 0) : ∀ {A B : List Nat},
    (∀ x ∈ A, (f.insn x).op ≠ .ecall) → findEcall f (A ++ e :: B) = some (e, B)
  | [], B, _ => by rw [List.nil_append, findEcall, if_pos ⟨he, h0⟩]
  | x :: A, B, h => by
    rw [List.cons_append, findEcall, if_neg (fun h1 => h x (by simp) h1.1)]
    exact findEcall_at he h0 (fun y hy => h y (List.mem_cons_of_mem _ hy))

theorem handleAll_none {k : Nat} {rs : List Nat} {f : Fn} : ∀ {bs : List Nat}, (∀ b ∈ bs, ∀ x ∈ f.body b, (f.insn x).op = .ecall → (f.insn x).aux ≠ 0) →
    handleAll k rs bs f = .ok f
  | [], _ => rfl
  | b :: bs, h => by
    rw [handleAll, walk, findEcall_none (h b (by simp))]
    dsimp only
    rw [Out.ok_bind]
    exact handleAll_none (fun c hc => h c (List.mem_cons_of_mem _ hc))

theorem handleAll_append {k : Nat} {rs : List Nat} {f : Fn} : ∀ {as bs : List Nat},
    (∀ b ∈ as, ∀ x ∈ f.body b, (f.insn x).op = .ecall → (f.insn x).aux ≠ 0) → handleAll k rs (as ++ bs) f = handleAll k rs bs f
  | [], _, _ => rfl
  | a :: as, bs, h => by
    rw [List.cons_append, handleAll, walk, findEcall_none (h a (by simp))]
    dsimp only
    rw [Out.ok_bind]
    exact handleAll_append (fun c hc => h c (List.mem_cons_of_mem _ hc))

/-- What is not behind a check stays in the block. -/
theorem Chain.stay {g : Fn} {S : List Nat} {b : Nat} {P M : List Nat} {y : Nat} (h : Chain g S b (P ++ y :: M)) (hP : ∀ z ∈ P, (g.insn z).op ≠ .jeq) :
    y ∈ g.body b := by
  generalize hl : P ++ y :: M = l at h
  cases h with
  | last _ h1 _ => rw [h1, ← hl]; simp
  | @cut _ c j n e t l r _ h1 hj =>
    have hjj : (g.insn j).op = .jeq := by rw [hj]; rfl
    rcases List.append_eq_append_iff.1 hl with ⟨C, q1, q2⟩ | ⟨C, q1, q2⟩
    · rw [h1, q1]
      cases C with
      | nil => simp at q2; rw [q2.1]; simp
      | cons z C => simp only [List.cons_append, List.cons.injEq] at q2; rw [q2.1]; simp
    · cases C with
      | nil => simp at q2; rw [h1, q2.1]; simp
      | cons z C =>
        simp only [List.cons_append, List.cons.injEq] at q2
        exact absurd (q2.1 ▸ hjj) (hP z (by rw [q1]; simp))

theorem handle_one {f g : Fn} {R : List Nat} {e m k : Nat} {pre : Nat → List Nat} (hs : Shape f) (ht : translateHeap k R f e = .ok g)
    (hR : Redirected f R e m g pre) (hcl : ∀ x, InBody g x → InBody f x ∧ x ≠ e ∨ (g.insn x).op ≠ .ecall) (hrn : R.Nodup) (hRb : ∀ b ∈ R, b ∈ f.allBbs) (hop : (f.insn e).op = .ecall)
    (h0 : (f.insn e).aux = 0) (hall : ∀ x, InBody f x → (f.insn x).op = .ecall → x = e)
    {b : Nat} (hb : b ∈ R) {A B : List Nat} (hbd : f.body b = A ++ e :: B)
    (hA : ∀ z ∈ A, ¬ (Heap f z ∧ (f.insn z).op = .loadraw)) (hB : ∀ y ∈ B.head?, ¬ (Heap f y ∧ (f.insn y).op = .loadraw)) :
    handleEcalls k R f = .ok g := by
  have hbf := hRb b hb
  have hnd := hs.tidy.nodup b hbf
  rw [hbd] at hnd
  have hAe : ∀ z ∈ A, z ≠ e := fun z hz ez => (List.nodup_append.1 hnd).2.2 z hz e (by simp) ez
  have hBe : ∀ z ∈ B, z ≠ e := fun z hz ez => (List.nodup_cons.1 (List.nodup_append.1 hnd).2.1).1 (ez ▸ hz)
  have hkind : ∀ x, InBody f x → (g.insn x).op = (f.insn x).op := by
    intro x hx
    by_cases hh : Heap f x ∧ ∃ b ∈ R, x ∈ f.body b
    · obtain ⟨hh, c, hc, hxc⟩ := hh
      rcases hh.1 with ho | ho
      · obtain ⟨d, _, _, _, _, _, _, _, _, _, _, _, _, _, _, _, hx'⟩ := hR.load c hc x hxc hh ho
        rw [hx']
      · obtain ⟨_, _, _, hx'⟩ := hR.store c hc x hxc hh ho
        rw [hx']
    · rw [(hR.other x (.inr (.inr hx)) hh).2]
  have hno : ∀ x, InBody g x → (g.insn x).op ≠ .ecall := by
    intro x hx
    rcases hcl x hx with ⟨h1, h2⟩ | h1
    · rw [hkind x h1]; exact fun h3 => h2 (hall x h1 h3)
    · exact h1
  have hgR : ∀ c ∈ R, ∀ x ∈ g.body c, (g.insn x).op = .ecall → (g.insn x).aux ≠ 0 := fun c hc x hx h1 =>
    absurd h1 (hno x ⟨c, (hR.blocks c (hRb c hc)).mem, hx⟩)
  have hwalk : walk k R b ((f.body b).length + 1) f (f.body b) = .ok g := by
    rw [hbd, walk, findEcall_at hop h0 (fun x hx h1 => hAe x hx (hall x ⟨b, hbf, by rw [hbd]; simp [hx]⟩ h1))]
    cases B with
    | nil => dsimp only; rw [ht]
    | cons y B =>
      dsimp only
      rw [ht, Out.ok_bind]
      have hy : y ∈ g.body b := by
        have hc := hR.blocks b hbf
        rw [hbd, List.filter_append, List.filter_cons, if_neg (by simp), List.filter_eq_self.2 (fun z hz => by simpa using hAe z hz),
          List.filter_eq_self.2 (fun z hz => by simpa using hBe z hz), List.flatMap_append, List.flatMap_cons] at hc
        have hnpre : ∀ z, InBody f z → z ≠ e → ¬ (Heap f z ∧ (f.insn z).op = .loadraw) → ∀ n ∈ pre z, (g.insn n).op ≠ .jeq := by
          intro z hz _ hnl n hn
          by_cases hh : Heap f z ∧ ∃ b ∈ R, z ∈ f.body b
          · obtain ⟨hh, c, hc, hzc⟩ := hh
            rcases hh.1 with ho | ho
            · exact absurd ⟨hh, ho⟩ hnl
            · obtain ⟨p, hp, ip, _⟩ := hR.store c hc z hzc hh ho
              rw [hp] at hn
              rw [List.mem_singleton.1 hn, ip]
              simp
          · rw [(hR.other z (.inr (.inr hz)) hh).1] at hn; cases hn
        refine Chain.stay (P := (A.flatMap fun x => pre x ++ [x]) ++ pre y) (M := B.flatMap fun x => pre x ++ [x]) (by simpa using hc) ?_
        intro z hz
        rcases List.mem_append.1 hz with hz | hz
        · obtain ⟨w, hw, hzw⟩ := List.mem_flatMap.1 hz
          have hwi : InBody f w := ⟨b, hbf, by rw [hbd]; simp [hw]⟩
          rcases List.mem_append.1 hzw with h1 | h1
          · exact hnpre w hwi (hAe w hw) (hA w hw) z h1
          · rw [List.mem_singleton.1 h1, hkind w hwi]
            have := (around hs hbf hbd (by rw [hop]; simp)).2 w hw
            intro h2
            rw [h2] at this
            cases this
        · exact hnpre y ⟨b, hbf, by rw [hbd]; simp⟩ (hBe y (by simp)) (hB y (by simp)) z hz
      have hpar : g.parent y = b := hR.shape.tidy.parent b (hR.blocks b hbf).mem y hy
      rw [if_pos hpar]
      have : (A ++ e :: y :: B).length = ((A ++ y :: B).length) + 1 := by simp; omega
      rw [this, walk, findEcall_none]
      intro x hx
      exact hgR b hb x ((List.dropWhile_sublist _).subset hx)
  obtain ⟨R1, R2, hR12⟩ := List.append_of_mem hb
  unfold handleEcalls
  have hpre : handleAll k R (R1 ++ b :: R2) f = handleAll k R (b :: R2) f := by
    refine handleAll_append (fun c hc x hx h1 => ?_)
    exfalso
    have hcR : c ∈ R := by rw [hR12]; simp [hc]
    have hxe := hall x ⟨c, hRb c hcR, hx⟩ h1
    have e1 := hs.tidy.parent c (hRb c hcR) x hx
    have e2 := hs.tidy.parent b hbf e (by rw [hbd]; simp)
    rw [hxe, e2] at e1
    rw [hR12, e1] at hrn
    exact (List.nodup_append.1 hrn).2.2 c hc c (by simp) rfl
  have h2 : handleAll k R R f = handleAll k R (b :: R2) f := by
    have : ∀ l, l = R1 ++ b :: R2 → handleAll k R l f = handleAll k R (b :: R2) f := fun l hl => by rw [hl]; exact hpre
    exact this R hR12
  rw [h2, handleAll, hwalk, Out.ok_bind]
  exact handleAll_none (fun c hc => hgR c (by rw [hR12]; simp [hc]))

end Verif.Ecall
