import Verif.Dead.Lemmas
import Verif.IR.OkCheck
import Verif.Edit.Props
/-!
# Properties of the optimisation pass
-/
namespace Verif.Dead
open Verif Verif.IR Verif.Edit

theorem removeNoUser_mono {rs : List Nat} : ∀ (k : Nat) (f g : Fn), removeNoUser rs k f = .ok g → ∀ k', k ≤ k' → removeNoUser rs k' f = .ok g
  | 0, f, g, h, _, _ => by cases h
  | k + 1, f, g, h, 0, hk => by omega
  | k + 1, f, g, h, k' + 1, hk => by
    simp only [removeNoUser] at h ⊢
    revert h
    cases sweepAll rs (false, f) with
    | ok s =>
      obtain ⟨c, f1⟩ := s
      cases c with
      | false => exact id
      | true => exact fun h => removeNoUser_mono k f1 g h k' (by omega)
    | err => exact id
    | crit => exact id
    | ub => exact id

/-- C25.  The elimination of unused instructions terminates; afterwards every instruction without effects of its own is used;
only instructions without effects that nobody refers to are gone; the order and everything else stays; and the function
does the same: same memory, same calls, same result. -/
theorem C25_deadElim {f : Fn} {rs : List Nat} (hf : Ok f) (hrs : ∀ b ∈ rs, b ∈ f.allBbs) :
    ∃ k0 g, (∀ k, k0 ≤ k → removeNoUser rs k f = .ok g) ∧
      (∀ b ∈ rs, ∀ x ∈ g.body b, effect (g.insn x).op = false → ∃ u, Live g u ∧ 0 < refs (g.insn u) x) ∧
      (∀ b x, x ∈ f.body b → x ∉ g.body b → b ∈ rs ∧ effect (f.insn x).op = false ∧ ∀ u, Live g u → refs (g.insn u) x = 0) ∧
      (∀ b, (g.body b).Sublist (f.body b)) ∧ g.insn = f.insn ∧ g.allBbs = f.allBbs ∧ g.succs = f.succs ∧ g.entry = f.entry ∧
      Ok g ∧ ∀ W σ, Preserves W f g σ := by
  obtain ⟨g, h1, h2, h3⟩ := removeNoUser_ok (total f rs + 1) f hf hrs (Nat.lt_succ_self _)
  obtain ⟨D, hD, hD'⟩ := h2.body
  refine ⟨_, g, fun k hk => removeNoUser_mono _ _ _ h1 k hk, ?_, ?_, fun b => ?_, h2.insn, h2.allBbs, h2.succs, h2.entry, h2.ok, h2.pres⟩
  · intro b hb x hx he
    have hr := h3 b hb x hx
    have hl : Live g x := .inr (.inr ⟨b, by rw [h2.allBbs]; exact hrs b hb, hx⟩)
    cases hu : g.users x with
    | nil => rw [removable_iff.2 ⟨he, hu⟩] at hr; cases hr
    | cons u us =>
      have hm : u ∈ g.users x := by rw [hu]; simp
      have hul := (h2.ok.users x hl).2 u hm
      exact ⟨u, hul, ((h2.ok.users.listed x hl).1 u hul).1 hm⟩
  · intro b x hx hn
    have hb : b ∈ f.allBbs := Classical.byContradiction fun h => by rw [hf.only b h] at hx; cases hx
    have hd : D x = true := by
      rw [hD, List.mem_filter] at hn
      cases e : D x with
      | true => rfl
      | false => exact absurd ⟨hx, by simp [e]⟩ hn
    obtain ⟨e1, c, hc, hxc⟩ := hD' x hd
    have hcb : c = b := (hf.tidy.parent c (hrs c hc) x hxc).symm.trans (hf.tidy.parent b hb x hx)
    subst hcb
    refine ⟨hc, e1, fun u hu => ?_⟩
    apply Classical.byContradiction
    intro hr
    rcases h2.ok.tidy.closed u x hu (by omega) with h | h | ⟨d, hd1, hd2⟩
    · rw [h2.sp] at h; exact (hf.tidy.fixed c hb x hx).1 h
    · rw [h2.args] at h; exact (hf.tidy.fixed c hb x hx).2 h
    · rw [hD, List.mem_filter, hd] at hd2
      simp at hd2
  · rw [hD]; exact List.filter_sublist

/-- The variables in the blocks `rs`. -/
def VarOf (f : Fn) (rs : List Nat) (a : Nat) : Prop := ∃ b ∈ rs, a ∈ f.body b ∧ (f.insn a).op = .alloc

theorem mem_allocs {f : Fn} {rs : List Nat} {a : Nat} : a ∈ allocs f rs ↔ VarOf f rs a := by
  simp [allocs, VarOf]

theorem allocs_nodup {f : Fn} (hf : Ok f) : ∀ {rs : List Nat}, rs.Nodup → (∀ b ∈ rs, b ∈ f.allBbs) → (allocs f rs).Nodup
  | [], _, _ => List.nodup_nil
  | b :: rs, hn, hb => by
    have hn := List.nodup_cons.1 hn
    have ih := allocs_nodup hf hn.2 (fun c hc => hb c (by simp [hc]))
    unfold allocs at ih ⊢
    rw [List.flatMap_cons, List.nodup_append]
    refine ⟨(hf.tidy.nodup b (hb b (by simp))).filter _, ih, fun x hx y hy e => ?_⟩
    subst e
    obtain ⟨c, hc, hx2⟩ := List.mem_flatMap.1 hy
    rw [List.mem_filter] at hx hx2
    have : b = c := (hf.tidy.parent b (hb b (by simp)) x hx.1).symm.trans (hf.tidy.parent c (hb c (by simp [hc])) x hx2.1)
    subst this
    exact hn.1 hc

/-- C26, in part: if every variable that is never loaded has at most one store, the pass succeeds, removes exactly these
variables and their stores, and the function does the same.  Missing: variables with two stores or more, for which the
pass fails (`C26_violated`). -/
theorem C26_unusedAlloc_partial {f : Fn} {rs : List Nat} (hf : Ok f) (hfix : Fixed f) (hn : rs.Nodup) (hrs : ∀ b ∈ rs, b ∈ f.allBbs)
    (hv : ∀ a, VarOf f rs a → Variable f a) (h1 : ∀ a, VarOf f rs a → NoLoad f a → (f.users a).length ≤ 1) :
    ∃ g, removeUnusedAlloc rs f = .ok g ∧
      (∀ b x, x ∈ g.body b ↔ x ∈ f.body b ∧ ¬ ∃ a, VarOf f rs a ∧ NoLoad f a ∧
        (x = a ∨ (f.insn x).op = .store ∧ (f.insn x).vals.head? = some (.insn a))) ∧
      (∀ b, (g.body b).Sublist (f.body b)) ∧ g.insn = f.insn ∧ g.allBbs = f.allBbs ∧ g.succs = f.succs ∧ g.entry = f.entry ∧
      Ok g ∧ ∀ W σ, Preserves W f g σ := by
  obtain ⟨D, g, k1, k2, k3⟩ := dropAllocs_ok (allocs f rs) f hf hfix ⟨allocs_nodup hf hn hrs,
    fun a ha => by obtain ⟨b, hb, hm, _⟩ := mem_allocs.1 ha; exact ⟨b, hrs b hb, hm⟩,
    fun a ha => by obtain ⟨b, hb, hm, h⟩ := mem_allocs.1 ha; exact h,
    fun a ha => hv a (mem_allocs.1 ha), fun a ha => h1 a (mem_allocs.1 ha)⟩
  refine ⟨g, k1, fun b x => ?_, fun b => by rw [k2.body]; exact List.filter_sublist, k2.insn, k2.allBbs, k2.succs, k2.entry, k2.ok, k2.pres⟩
  rw [k2.body, List.mem_filter]
  refine and_congr_right fun hx => ?_
  have hb : b ∈ f.allBbs := Classical.byContradiction fun h => by rw [hf.only b h] at hx; cases hx
  have hxl : Live f x := .inr (.inr ⟨b, hb, hx⟩)
  rw [Bool.not_eq_true', ← Bool.not_eq_true, k3]
  refine not_congr ⟨?_, ?_⟩
  · rintro ⟨a, ha, hl, h⟩
    refine ⟨a, mem_allocs.1 ha, hl, ?_⟩
    rcases h with h | h
    · exact .inl h
    · rcases hv a (mem_allocs.1 ha) x h with h' | ⟨h', ⟨v, h'', _⟩, _⟩
      · exact absurd h'.1 (hl x h)
      · exact .inr ⟨h', by rw [h'']; rfl⟩
  · rintro ⟨a, ha, hl, h⟩
    refine ⟨a, mem_allocs.2 ha, hl, ?_⟩
    rcases h with h | ⟨h, h'⟩
    · exact .inl h
    · obtain ⟨c, hc, hm, _⟩ := ha
      refine .inr (((hf.users a (.inr (.inr ⟨c, hrs c hc, hm⟩))).1 x hxl).2 ?_)
      have : 0 < (f.insn x).vals.count (.insn a) := List.count_pos_iff.2 (List.mem_of_mem_head? (by rw [h']; simp))
      unfold refs; omega

/-- C26 is violated: a variable with two stores or more that is never loaded makes the pass fail, because the loop over
the users skips every second one. -/
theorem C26_violated {f : Fn} {a : Nat} (hn : NoLoad f a) (hd : (f.users a).Nodup)
    (hu : ∀ u ∈ f.users a, u ≠ a ∧ f.users u = [] ∧ 0 < refs (f.insn u) a) (h2 : 2 ≤ (f.users a).length) : dropAlloc f a = .err :=
  dropAlloc_err hn hd hu h2

/-! ## Examples -/

/-- `a = alloc; store a, 5; y = r1 + r1; z = y + 1; ret 7` -/
def exDead : Fn :=
  let f := createBb emptyFn (mkAlloc .t64) 0 .back
  let f := createBb f (mkStore 6 (const64 5)) 0 .back
  let f := createBb f (mkBin .add .w64 (.insn 1) (.insn 1)) 0 .back
  let f := createBb f (mkBin .add .w64 (.insn 8) (const64 1)) 0 .back
  createBb f (mkRet (const64 7)) 0 .back

theorem exDead_body (b : Nat) : exDead.body b = if b = 0 then [6, 7, 8, 9, 10] else [] := by
  by_cases h : b = 0
  · subst h; decide
  · unfold exDead
    dsimp only
    rw [(added_createBb ..).body b h, (added_createBb ..).body b h, (added_createBb ..).body b h, (added_createBb ..).body b h,
      (added_createBb ..).body b h, if_neg h]
    rfl

theorem exDead_ok : Ok exDead := ok_of_check (by decide +kernel) (fun b hb => by
  rw [exDead_body, if_neg]
  rintro rfl
  exact hb (by decide))

/-- Two rounds are needed here: the second addition goes first. -/
example : Ok exDead ∧ (∀ b ∈ [0], b ∈ exDead.allBbs) ∧
    onOk (removeNoUser [0] 3 exDead) (fun g => g.body 0 = [6, 7, 10]) = true ∧
    onOk (removeNoUser [0] 2 exDead) (fun _ => true) = false :=
  ⟨exDead_ok, by decide, by decide +kernel, by decide +kernel⟩

/-- The variable and its store go, the rest stays. -/
example : Fixed exDead ∧ VarOf exDead [0] 6 ∧ Variable exDead 6 ∧ NoLoad exDead 6 ∧ (exDead.users 6).length ≤ 1 ∧
    onOk (removeUnusedAlloc [0] exDead) (fun g => g.body 0 = [8, 9, 10]) = true := by
  have hu : exDead.users 6 = [7] := by decide
  refine ⟨?_, ⟨0, by simp, by decide, by decide⟩, ?_, ?_, by decide, by decide +kernel⟩
  · intro x hx
    have hx : x = 0 ∨ x ∈ [1, 2, 3, 4, 5] := hx
    simp at hx
    rcases hx with rfl | rfl | rfl | rfl | rfl | rfl <;> decide
  · intro u h
    rw [hu] at h
    simp at h; subst h
    exact .inr ⟨by decide, ⟨const64 5, by decide, by decide⟩, by decide⟩
  · intro u h
    rw [hu] at h
    simp at h; subst h
    decide

/-- `a = alloc; store a, 5; store a, 8; ret 7` -/
def exTwice : Fn :=
  let f := createBb emptyFn (mkAlloc .t64) 0 .back
  let f := createBb f (mkStore 6 (const64 5)) 0 .back
  let f := createBb f (mkStore 6 (const64 8)) 0 .back
  createBb f (mkRet (const64 7)) 0 .back

/-- Two stores to a variable that is never loaded: the pass fails. -/
theorem C26_violated_witness : exTwice.body 0 = [6, 7, 8, 9] ∧ exTwice.users 6 = [7, 8] ∧
    (match removeUnusedAlloc [0] exTwice with | .err => true | _ => false) = true := by decide +kernel

end Verif.Dead
