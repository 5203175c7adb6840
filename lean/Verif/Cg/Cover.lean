import Verif.Cg.Grow
/-!
# Every reference is listed

`Cover f E`: an instruction that refers to another one (and is not in `E`) is in the list of its users.
-/
namespace Verif.Cg
open Verif Verif.IR Verif.Edit Verif.Loc

def Cover (f : Fn) (E : Nat → Prop) : Prop := ∀ y u, Live f u → ¬ E u → 0 < refs (f.insn u) y → u ∈ f.users y

theorem Cover.mono {f : Fn} {E E' : Nat → Prop} (h : Cover f E) (he : ∀ u, E u → E' u) : Cover f E' :=
  fun y u hu hn => h y u hu (fun e => hn (he u e))

theorem UsersListed.cover {f : Fn} (ht : Tidy f) (h : UsersListed f) : Cover f (fun _ => False) :=
  fun y u hu _ hr => ((h y (ht.closed u y hu hr)).1 u hu).2 hr

theorem Cover.removeUser {f : Fn} {E : Nat → Prop} (h : Cover f E) (v : Val) {x : Nat} (hx : E x) : Cover (removeUser f v x) E := by
  have hs := removeUser_same f v x
  intro y u hu hn hr
  rw [hs.live] at hu
  rw [hs.insn] at hr
  have := List.count_pos_iff.2 (h y u hu hn hr)
  rw [← List.count_pos_iff, removeUser_count, if_neg (by rintro ⟨-, rfl⟩; exact hn hx)]
  omega

theorem Cover.added {f g : Fn} {E : Nat → Prop} {i : Insn} {b : Nat} (ht : Tidy f) (h : Cover f E) (ha : Added f i b g) (hb : b ∈ f.allBbs)
    (hi : ∀ y, .insn y ∈ operands i → Live f y) : Cover g E := by
  have hd := next_dead ht
  intro y u hu hn hr
  rw [ha.live hb] at hu
  rw [ha.insn] at hr
  rw [ha.users, ← List.count_pos_iff, alloc_count]
  rcases hu with rfl | hu
  · rw [upd_same, refs_eq] at hr
    rw [if_pos rfl]
    omega
  · have hne : u ≠ f.next := fun e => hd (e ▸ hu)
    rw [upd_ne _ _ hne] at hr
    rw [if_neg (fun e => hd (by rw [← e]; exact ht.closed u y hu hr))]
    have := List.count_pos_iff.2 (h y u hu hn hr)
    omega

theorem Cover.replaceAll {f : Fn} {E : Nat → Prop} {x : Nat} {rep : Val} (h : Cover f E) (hr : rep ≠ .insn x) : Cover (replaceAll f x rep) E := by
  have h3 := replaceAll_spec (f := f) hr
  intro y u hu hn hrf
  rw [h3.live] at hu
  have hold : 0 < (operands (f.insn u)).count (.insn y) → 0 < (f.users y).count u :=
    fun h5 => List.count_pos_iff.2 (h y u hu hn (by rw [refs_eq]; exact h5))
  rw [← List.count_pos_iff]
  by_cases hm : u ∈ f.users x
  · rw [h3.insnIn u hm, refs_eq, operands_mapOps, count_sub _ _ _ _ hr] at hrf
    by_cases e : rep = .insn y
    · rw [h3.usersIn y u e hm]
      rw [if_pos e] at hrf
      split at hrf
      · omega
      · rcases Nat.eq_zero_or_pos ((operands (f.insn u)).count (.insn y)) with h5 | h5
        · omega
        · have := hold h5; omega
    · rw [if_neg e] at hrf
      split at hrf
      · omega
      · rename_i hyx
        rw [h3.usersOut y u (fun e => hyx (by rw [e])) (.inl e)]
        exact hold (by omega)
  · rw [h3.insnOut u hm, refs_eq] at hrf
    have hyx : y ≠ x := by
      rintro rfl
      exact hm (h y u hu hn (by rw [refs_eq]; exact hrf))
    rw [h3.usersOut y u hyx (.inr hm)]
    exact hold hrf

/-- With every reference listed, `bpf_ir_replace_all_usage` rewrites all of them. -/
theorem replaceAll_insn {f : Fn} {E : Nat → Prop} {x : Nat} {rep : Val} (h : Cover f E) (hr : rep ≠ .insn x) {u : Nat} (hu : Live f u) (hn : ¬ E u) :
    (replaceAll f x rep).insn u = mapOps (sub x rep) (f.insn u) := by
  have h3 := replaceAll_spec (f := f) hr
  by_cases hm : u ∈ f.users x
  · exact h3.insnIn u hm
  · rw [h3.insnOut u hm]
    refine (mapOps_id (fun v hv => ?_)).symm
    unfold sub
    rw [if_neg]
    rintro rfl
    exact hm (h x u hu hn (refs_pos.2 hv))

end Verif.Cg
