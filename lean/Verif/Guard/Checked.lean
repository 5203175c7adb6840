import Verif.Guard.Run
import Verif.IR.Steps
/-!
# Behind the check
-/
namespace Verif.Guard
open Verif Verif.IR Verif.Edit
set_option linter.unusedSimpArgs false

variable {W : World} {f g : Fn} {b n e : Nat} {hd tl : List Nat} {i : Insn}

theorem Way.succ (hs : Shape f) {c c1 : Nat} {r : List Nat} {σ : St} (ha : At f c r) (h : Way f c σ r c1) : c1 ∈ f.succs c := by
  cases h with
  | fall h => rw [h]; simp
  | ja h => exact (hs.wired c ha.1 _ (ha.2.subset (List.mem_cons_self ..))).1 h
  | no h _ => exact ((hs.wired c ha.1 _ (ha.2.subset (List.mem_cons_self ..))).2 h).1
  | yes h _ => exact ((hs.wired c ha.1 _ (ha.2.subset (List.mem_cons_self ..))).2 h).2

theorem At.step (hs : Shape f) {c c1 : Nat} {r r1 : List Nat} {σ τ : St} (ha : At f c r) (h : IR.step W f c r σ = .goto c1 r1 τ) : At f c1 r1 := by
  rcases step_cases h with ⟨x, h1, h2, _⟩ | ⟨h1, h2, _⟩
  · subst h1 h2
    exact ⟨ha.1, (List.suffix_cons x r1).trans ha.2⟩
  · refine ⟨(hs.graph.succs c ha.1).2 c1 (Way.succ hs ha h1), ?_⟩
    rw [h2]
    exact List.dropWhile_suffix _

theorem At.start (hs : Shape f) : At f f.entry (f.body f.entry) := ⟨hs.entry, List.suffix_refl _⟩

/-- In front of the moved instructions the check has succeeded, and the state is the same as at the check. -/
theorem Guard.checked (G : Guard f b n e hd tl i g) (ho : GOk f tl) (hg : Shape g) {σ τ : St} {x : Nat} {tl' : List Nat} (hx : tl = x :: tl')
    (h : Reaches W g σ x τ) : taken i τ = some false := by
  obtain ⟨m, c, r, h⟩ := h
  have hnd : tl.Nodup := by
    have := hg.tidy.nodup n (G.mem_all.2 (.inr (.inl rfl)))
    rwa [G.bodyN] at this
  have key := run_inv (W := W) (f := g) (fun c r σ => At g c r ∧ (c = n → r = tl → taken i σ = some false)) (by
    intro c r σ c1 r1 τ ⟨h1, h2⟩ h3
    refine ⟨At.step hg h1 h3, ?_⟩
    rcases step_cases h3 with ⟨x, h4, h5, _⟩ | ⟨h4, h5, p, h6, h7⟩
    · intro h6 h7
      subst h4 h5 h6
      obtain ⟨A, hA⟩ := h1.2
      rw [G.bodyN, h7] at hA
      have := congrArg List.length hA
      simp at this
      omega
    · intro h8 h9
      subst h8
      have hsucc := Way.succ hg h1 h4
      rw [(G.phisN ho).1] at h6
      simp only [phiAssign] at h6
      cases h6
      subst h7
      have hc : c = b := by
        rw [G.succs] at hsucc
        split at hsucc
        · assumption
        · exfalso
          split at hsucc
          · exact G.freshN ((ho.shape.graph.succs b G.inF).2 _ hsucc)
          · split at hsucc
            · cases hsucc
            · rename_i h10 h11 h12
              have : c ∈ f.allBbs := by rcases G.mem_all.1 h1.1 with h | h | h <;> simp_all
              exact G.freshN ((ho.shape.graph.succs c this).2 _ hsucc)
      subst hc
      have hr : r = [f.next + 1] ∨ r = [] ∨ ∃ y r', r = y :: r' ∧ y ∈ hd := by
        obtain ⟨A, hA⟩ := h1.2
        rw [G.body c G.inF, if_pos rfl] at hA
        cases r with
        | nil => exact .inr (.inl rfl)
        | cons y r' =>
          have hy : y ∈ hd ++ [f.next + 1] := by rw [← hA]; simp
          rcases List.mem_append.1 hy with h | h
          · exact .inr (.inr ⟨y, r', rfl, h⟩)
          · rw [List.mem_singleton.1 h] at hA ⊢
            rcases List.eq_nil_or_concat r' with h' | ⟨r2, z, h'⟩
            · exact .inl (by rw [h'])
            · rw [List.concat_eq_append] at h'
              subst h'
              have : hd = A ++ (f.next + 1) :: r2 := by
                have : (A ++ (f.next + 1) :: r2) ++ [z] = hd ++ [f.next + 1] := by simpa using hA
                exact (List.append_inj_left' this rfl).symm
              have := lt_of_body ho.shape.tidy G.inF (x := f.next + 1) (by rw [G.list, this]; simp)
              omega
      rcases hr with hr | hr | ⟨y, r', hr, hy⟩
      · subst hr
        generalize hl : [f.next + 1] = l at h4
        generalize hn : c1 = c2 at h4
        cases h4 with
        | fall h => cases hl
        | ja h => cases hl; rw [G.insn_j] at h; have := G.cond; rw [h] at this; cases this
        | no h ht => cases hl; rw [G.insn_j] at ht; exact ht
        | yes h ht => cases hl; rw [G.insn_j, G.bb2] at hn; exact absurd hn G.ne
      · subst hr
        generalize hl : ([] : List Nat) = l at h4
        cases h4 with
        | fall h => rw [G.succs, if_pos rfl] at h; simp at h
        | ja h => cases hl
        | no h ht => cases hl
        | yes h ht => cases hl
      · subst hr
        have hp := G.hd_plain ho.shape hy
        rw [← G.insn_old (lt_of_body ho.shape.tidy G.inF (by rw [G.list]; exact List.mem_append_left _ hy))] at hp
        generalize hl : y :: r' = l at h4
        cases h4 with
        | fall h => cases hl
        | ja h => cases hl; rw [ends_ja h] at hp; cases hp
        | no h ht => cases hl; rw [ends_cond h] at hp; cases hp
        | yes h ht => cases hl; rw [ends_cond h] at hp; cases hp) m (c := g.entry) (r := g.body g.entry) (σ := σ) ⟨At.start hg, by
          intro h1; exfalso; rw [G.entry] at h1; exact G.freshN (by rw [← h1]; exact ho.shape.entry)⟩ h
  obtain ⟨h1, h2⟩ := key
  have hxt : x ∈ g.body c := h1.2.subset (List.mem_cons_self ..)
  have hxn : x ∈ g.body n := by rw [G.bodyN, hx]; simp
  have hcn : c = n := by rw [← hg.tidy.parent c h1.1 x hxt, hg.tidy.parent n (G.mem_all.2 (.inr (.inl rfl))) x hxn]
  refine h2 hcn ?_
  obtain ⟨A, hA⟩ := h1.2
  rw [hcn, G.bodyN, hx] at hA
  rw [hx] at hnd
  cases A with
  | nil => rw [hx]; exact hA
  | cons a A =>
    simp at hA
    exfalso
    exact (List.nodup_cons.1 hnd).1 (by rw [← hA.2]; simp)

end Verif.Guard
