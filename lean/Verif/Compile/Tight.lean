import Verif.Compile.Alloc
/-!
# The user lists during code generation: a phi is listed at most as often as it refers to the value
-/
namespace Verif.Compile
open Verif Verif.IR Verif.Edit Verif.Cg
open Verif.Norm (VrPos Reg Op)

/-- Phis are listed as users of the values in `P` at most as often as they refer to them. -/
def Tight (P : Nat → Prop) (f : Fn) : Prop := ∀ y, P y → y < f.next → ∀ u, (f.insn u).op = .phi → (f.users y).count u ≤ refs (f.insn u) y

variable {P : Nat → Prop}

theorem alloc_insn (f : Fn) (i : Insn) (b : Nat) : (alloc f i b).insn = upd f.insn f.next i := by
  unfold alloc
  exact (addUsers_same f.next (operands i) _).insn

theorem Tight.added {f g : Fn} {i : Insn} {b : Nat} (h : Tight P f) (hi : i.op ≠ .phi) (e1 : g.insn = (alloc f i b).insn) (e2 : g.users = (alloc f i b).users) (e3 : g.next = f.next + 1) : Tight P g := by
  intro y hy hlt u hu
  rw [e1, alloc_insn] at hu ⊢
  have hne : u ≠ f.next := by rintro rfl; rw [upd_same] at hu; exact hi hu
  rw [upd_ne _ _ hne] at hu ⊢
  rw [e2, alloc_count, if_neg hne]
  split
  · omega
  · have := h y hy (by omega) u hu
    omega

theorem createAt_eqs {f g : Fn} {i : Insn} {x : Nat} {p : Pos} (h : createAt f i x p = .ok g) :
    g.insn = (alloc f i (f.parent x)).insn ∧ g.users = (alloc f i (f.parent x)).users := by
  unfold createAt at h
  obtain ⟨l, -, e⟩ := Out.bind_eq_ok.1 h
  cases e
  exact ⟨rfl, rfl⟩

theorem Tight.createAt {f g : Fn} {i : Insn} {x : Nat} {p : Pos} (h : Tight P f) (hi : i.op ≠ .phi) (e : createAt f i x p = .ok g) : Tight P g :=
  h.added hi (createAt_eqs e).1 (createAt_eqs e).2 (createAt_users e).2

theorem Tight.createBb {f : Fn} {i : Insn} {b : Nat} {p : Pos} (h : Tight P f) (hi : i.op ≠ .phi) : Tight P (createBb f i b p) :=
  h.added (b := b) hi rfl rfl rfl

/-- A change of an instruction that is not a phi. -/
theorem Tight.changed {f g : Fn} {u : Nat} (h : Tight P f) (hc : Changed f u g) (hu : (g.insn u).op ≠ .phi) : Tight P g := by
  intro y hy hlt z hz
  have hne : z ≠ u := by rintro rfl; exact hu hz
  rw [hc.patched.insn z hne] at hz ⊢
  rw [hc.users y z hne]
  exact h y hy (by rw [← hc.patched.next]; exact hlt) z hz

theorem Tight.removeUser {f : Fn} (h : Tight P f) (v : Val) (x : Nat) : Tight P (removeUser f v x) := by
  intro y hy hlt u hu
  rw [removeUser_insn] at hu ⊢
  rw [removeUser_count]
  rw [removeUser_next] at hlt
  have := h y hy hlt u hu
  omega

theorem Tight.replaceAll {f : Fn} {x n : Nat} (h : Tight P f) (hx : P x) (hr : (.insn n : Val) ≠ .insn x) : Tight P (replaceAll f x (.insn n)) := by
  have hs := replaceAll_spec (f := f) hr
  intro y hy hlt u hu
  rw [hs.next] at hlt
  by_cases ex : y = x
  · subst ex
    rw [replaceAll_usersX hr]
    exact Nat.zero_le _
  · by_cases hS : u ∈ f.users x
    · rw [hs.insnIn u hS] at hu ⊢
      rw [mapOps_op] at hu
      have h1 := h y hy hlt u hu
      rw [refs_eq] at h1
      rw [refs_eq, operands_mapOps, count_sub _ _ _ _ hr, if_neg (fun e => ex (Val.insn.inj e))]
      by_cases en : n = y
      · subst en
        rw [hs.usersIn n u rfl hS, if_pos rfl]
        omega
      · rw [hs.usersOut y u ex (.inl (fun e => en (Val.insn.inj e))), if_neg (fun e => en (Val.insn.inj e))]
        omega
    · rw [hs.insnOut u hS] at hu ⊢
      rw [hs.usersOut y u ex (.inr hS)]
      exact h y hy hlt u hu

/-! ## The steps up to the allocation -/

theorem argCopies_tight {x : Nat} : ∀ (vs : List Val) (i : Nat) (s t : Cg), argCopies x vs i s = .ok t → Tight P s.f → Tight P t.f
  | [], i, s, t, e, h => by cases e; exact h
  | v :: vs, i, s, t, e, h => by
    unfold argCopies at e
    obtain ⟨g, e1, e2⟩ := Out.bind_eq_ok.1 e
    exact argCopies_tight vs _ _ t e2 ((h.removeUser v x).createAt (by simp [mkAssign]) e1)

theorem argCopies_op {x z : Nat} : ∀ (vs : List Val) (i : Nat) (s t : Cg), argCopies x vs i s = .ok t → z < s.f.next → (t.f.insn z).op = (s.f.insn z).op ∧ s.f.next ≤ t.f.next
  | [], i, s, t, e, h => by cases e; exact ⟨rfl, Nat.le_refl _⟩
  | v :: vs, i, s, t, e, h => by
    unfold argCopies at e
    obtain ⟨g, e1, e2⟩ := Out.bind_eq_ok.1 e
    have hn : g.next = s.f.next + 1 := by rw [(createAt_users e1).2, removeUser_next]
    obtain ⟨h1, h2⟩ := argCopies_op (z := z) vs _ _ t e2 (by dsimp only; omega)
    dsimp only at h1 h2
    refine ⟨?_, by omega⟩
    rw [h1, (createAt_eqs e1).1, alloc_insn, removeUser_next, upd_ne _ _ (by omega), removeUser_insn]

theorem lowerCall_tight {rg : Nat → Nat} {x : Nat} {s t : Cg} (e : lowerCall rg x s = .ok t) (hop : (s.f.insn x).op = .call) (hx : x < s.f.next) (hP : P x) (h : Tight P s.f) :
    Tight P t.f ∧ (∀ z, z < s.f.next → (t.f.insn z).op = (s.f.insn z).op) ∧ s.f.next ≤ t.f.next := by
  unfold lowerCall at e
  obtain ⟨t1, e1, e⟩ := Out.bind_eq_ok.1 e
  have h1 := argCopies_tight _ _ _ _ e1 h
  have ho := fun z hz => argCopies_op (z := z) _ _ _ _ e1 hz
  have hop' : (t1.f.insn x).op = .call := by rw [(ho x hx).1]; exact hop
  have h2 : Tight P { t1.f with insn := upd t1.f.insn x { t1.f.insn x with vals := [] } } := by
    intro y hy hlt u hu
    have hne : u ≠ x := by
      rintro rfl
      dsimp only at hu
      rw [upd_same] at hu
      dsimp only at hu
      rw [hop'] at hu
      cases hu
    dsimp only at hu ⊢
    rw [upd_ne _ _ hne] at hu ⊢
    exact h1 y hy hlt u hu
  have ho2 : ∀ z, z < s.f.next → ((upd t1.f.insn x { t1.f.insn x with vals := [] }) z).op = (s.f.insn z).op := by
    intro z hz
    by_cases e : z = x
    · subst e; rw [upd_same]; exact (ho z hz).1
    · rw [upd_ne _ _ e]; exact (ho z hz).1
  have hn := (ho x hx).2
  dsimp only at e
  split at e
  · cases e
    exact ⟨h2, ho2, hn⟩
  · obtain ⟨g, e2, e⟩ := Out.bind_eq_ok.1 e
    cases e
    have hne : (.insn t1.f.next : Val) ≠ .insn x := fun e => by have := Val.insn.inj e; omega
    refine ⟨(h2.createAt (by simp [mkAssign]) e2).replaceAll hP hne, fun z hz => ?_, ?_⟩
    · have hs := replaceAll_spec (f := g) hne
      have : (g.insn z).op = (s.f.insn z).op := by
        rw [(createAt_eqs e2).1, alloc_insn, upd_ne _ _ (by dsimp only; omega)]
        exact ho2 z hz
      dsimp only
      by_cases hS : z ∈ g.users x
      · rw [hs.insnIn z hS, mapOps_op]; exact this
      · rw [hs.insnOut z hS]; exact this
    · dsimp only
      rw [(replaceAll_spec hne).next, (createAt_users e2).2]
      dsimp only
      omega

theorem lowerCalls_tight {rg : Nat → Nat} : ∀ (xs : List Nat) (s t : Cg), lowerCalls rg xs s = .ok t → (∀ x ∈ xs, (s.f.insn x).op = .call ∧ x < s.f.next ∧ P x) → Tight P s.f → Tight P t.f
  | [], s, t, e, _, h => by cases e; exact h
  | x :: xs, s, t, e, hx, h => by
    unfold lowerCalls at e
    obtain ⟨s1, e1, e2⟩ := Out.bind_eq_ok.1 e
    obtain ⟨h1, h2, h3⟩ := hx x (by simp)
    obtain ⟨k1, k2, k3⟩ := lowerCall_tight e1 h1 h2 h3 h
    refine lowerCalls_tight xs s1 t e2 (fun z hz => ?_) k1
    obtain ⟨j1, j2, j3⟩ := hx z (by simp [hz])
    exact ⟨(k2 z j2).trans j1, by omega, j3⟩

theorem lowerArg_tight {rg : Nat → Nat} {s : Cg} {o : Nat × Nat} (hx : o.1 < s.f.next) (hP : P o.1) (h : Tight P s.f) : Tight P (lowerArg rg s o).f ∧ s.f.next ≤ (lowerArg rg s o).f.next := by
  unfold lowerArg
  split
  · exact ⟨h, Nat.le_refl _⟩
  · have hne : (.insn s.f.next : Val) ≠ .insn o.1 := fun e => by have := Val.insn.inj e; omega
    refine ⟨(h.createBb (by simp [mkAssign])).replaceAll hP hne, ?_⟩
    dsimp only
    rw [(replaceAll_spec hne).next]
    exact Nat.le_succ _

theorem lowerArgs_tight {rg : Nat → Nat} : ∀ (os : List (Nat × Nat)) (s : Cg), (∀ o ∈ os, o.1 < s.f.next ∧ P o.1) → Tight P s.f → Tight P (os.foldl (lowerArg rg) s).f
  | [], s, _, h => h
  | o :: os, s, ho, h => by
    obtain ⟨h1, h2⟩ := ho o (by simp)
    obtain ⟨k1, k2⟩ := lowerArg_tight (rg := rg) h1 h2 h
    exact lowerArgs_tight os _ (fun p hp => ⟨by have := (ho p (by simp [hp])).1; omega, (ho p (by simp [hp])).2⟩) k1

theorem lower_tight {f : Fn} {R : List Nat} {s : Cg} (e : lower f R = .ok s) (hlt : ∀ b ∈ R, ∀ x ∈ f.body b, x < f.next ∧ P x) (ha : ∀ a ∈ f.args, a < f.next ∧ P a) (h : Tight P f) :
    Tight P s.f := by
  unfold lower changeCall at e
  obtain ⟨t, e1, e2⟩ := Out.bind_eq_ok.1 e
  cases e2
  have h0 : Tight P (initCg f).f := by
    intro y hy hlt u hu
    by_cases hu' : f.next ≤ u ∧ u < f.next + 10
    · exfalso
      have : ((initCg f).f.insn u).op = .reg := by unfold initCg; dsimp only; rw [if_pos hu']
      rw [this] at hu
      cases hu
    · have e1 : (initCg f).f.insn u = f.insn u := by unfold initCg; dsimp only; rw [if_neg hu']
      rw [e1] at hu ⊢
      have hlt : y < f.next + 10 := hlt
      unfold initCg
      dsimp only
      split
      · simp
      · exact h y hy (by omega) u hu
  have h1 := lowerCalls_tight (rg := rgOf f) _ _ _ e1 (fun x hx => by
    obtain ⟨h2, h3⟩ := List.mem_filter.1 hx
    obtain ⟨b, hb, hxb⟩ := List.mem_flatMap.1 h2
    have := hlt b hb x hxb
    refine ⟨by simpa using h3, ?_, this.2⟩
    show x < f.next + 10
    omega) h0
  have hnx : f.next ≤ t.f.next := by
    have : ∀ (xs : List Nat) (s t : Cg), lowerCalls (rgOf f) xs s = .ok t → (∀ x ∈ xs, x < s.f.next) → s.f.next ≤ t.f.next := by
      intro xs
      induction xs with
      | nil => intro s t e _; cases e; exact Nat.le_refl _
      | cons x xs ih =>
        intro s t e hx
        unfold lowerCalls at e
        obtain ⟨s1, e1, e2⟩ := Out.bind_eq_ok.1 e
        have h1 : s.f.next ≤ s1.f.next := by
          unfold lowerCall at e1
          obtain ⟨t1, e3, e1⟩ := Out.bind_eq_ok.1 e1
          have ho := (argCopies_op (z := x) _ _ _ _ e3 (hx x (by simp))).2
          dsimp only at e1
          split at e1
          · cases e1; exact ho
          · obtain ⟨g, e4, e1⟩ := Out.bind_eq_ok.1 e1
            cases e1
            dsimp only
            have hne : (.insn t1.f.next : Val) ≠ .insn x := fun e => by have := Val.insn.inj e; have := hx x (by simp); omega
            rw [(replaceAll_spec hne).next, (createAt_users e4).2]
            dsimp only
            omega
        exact Nat.le_trans h1 (ih s1 t e2 (fun z hz => Nat.lt_of_lt_of_le (hx z (by simp [hz])) h1))
    have h2 := this _ _ _ e1 (fun x hx => by
      obtain ⟨b, hb, hxb⟩ := List.mem_flatMap.1 (List.mem_filter.1 hx).1
      have := (hlt b hb x hxb).1
      show x < f.next + 10
      omega)
    have : (initCg f).f.next = f.next + 10 := rfl
    omega
  refine lowerArgs_tight _ _ (fun o ho => ?_) h1
  have := ha o.1 (List.fst_mem_of_mem_zipIdx ho)
  exact ⟨by omega, this.2⟩

theorem Tight.changeValue {f g : Fn} {x : Nat} {p : Ptr} {v : Val} (h : Tight P f) (e : changeValue f x p v = .ok g) : Tight P g := by
  unfold Edit.changeValue at e
  split at e
  · cases e
  · rename_i old ho
    cases e
    intro y hy hlt u hu
    have hl2 : y < f.next := by
      rw [addUser_next] at hlt
      dsimp only at hlt
      rwa [removeUser_next] at hlt
    rw [addUser_insn] at hu ⊢
    rw [addUser_count]
    dsimp only at hu ⊢
    rw [removeUser_count]
    rw [removeUser_insn] at hu ⊢
    by_cases eu : u = x
    · subst eu
      rw [upd_same] at hu ⊢
      rw [setPtr_op] at hu
      have h1 := h y hy hl2 u hu
      have h2 := setPtr_count (v := v) (w := .insn y) ho
      have h3 := setPtr_count (v := .undef) (w := .insn y) ho
      rw [if_neg (show ¬ (Val.undef = .insn y) by simp)] at h3
      rw [refs_eq] at h1 ⊢
      simp only [and_true]
      by_cases c1 : old = .insn y <;> by_cases c2 : v = .insn y <;> simp only [c1, c2, if_true, if_false] at h2 h3 ⊢ <;> omega
    · rw [upd_ne _ _ eu] at hu ⊢
      have h1 := h y hy hl2 u hu
      rw [if_neg (fun h => eu h.2), if_neg (fun h => eu h.2)]
      omega

theorem constsToRegs_tight : ∀ (xs : List Nat) (s t : Cg), constsToRegs xs s = .ok t → Tight P s.f → Tight P t.f
  | [], s, t, e, h => by cases e; exact h
  | x :: xs, s, t, e, h => by
    unfold constsToRegs at e
    obtain ⟨s1, e1, e2⟩ := Out.bind_eq_ok.1 e
    refine constsToRegs_tight xs s1 t e2 ?_
    unfold constToReg at e1
    split at e1
    · cases e1; exact h
    · obtain ⟨g, e3, e1⟩ := Out.bind_eq_ok.1 e1
      obtain ⟨k, e4, e1⟩ := Out.bind_eq_ok.1 e1
      cases e1
      exact (h.createAt (by simp [mkAssign]) e3).changeValue e4

theorem spillArrays_fn : ∀ (xs : List Nat) (s t : Cg) (off off' : Int), spillArrays xs s off = .ok (t, off') → t.f = s.f
  | [], s, t, off, off', e => by cases e; rfl
  | x :: xs, s, t, off, off', e => by
    unfold spillArrays at e
    split at e
    · obtain ⟨n, -, e⟩ := Out.bind_eq_ok.1 e
      exact (spillArrays_fn xs ⟨s.f, _⟩ t _ off' e).trans rfl
    · exact spillArrays_fn xs s t off off' e

theorem prepare_tight {f : Fn} {R : List Nat} {s : Cg} {off : Int} (e : prepare f R = .ok (s, off)) (hlt : ∀ b ∈ R, ∀ x ∈ f.body b, x < f.next ∧ P x) (ha : ∀ a ∈ f.args, a < f.next ∧ P a)
    (h : Tight P f) : Tight P s.f := by
  unfold prepare at e
  obtain ⟨s1, e1, e⟩ := Out.bind_eq_ok.1 e
  obtain ⟨⟨s2, o2⟩, e2, e⟩ := Out.bind_eq_ok.1 e
  obtain ⟨s3, e3, e⟩ := Out.bind_eq_ok.1 e
  cases e
  refine constsToRegs_tight _ _ _ e3 ?_
  dsimp only
  rw [spillArrays_fn _ _ _ _ _ e2]
  exact lower_tight e1 hlt ha h

/-! ## Spilling -/

theorem reloadPhi_tight {v a u : Nat} : ∀ (l : List (Nat × Val)) (j : Nat) (s t : Cg), reloadPhi v a u l j s = .ok t → Tight P s.f → Tight P t.f ∧ s.f.next ≤ t.f.next
  | [], j, s, t, e, h => by cases e; exact ⟨h, Nat.le_refl _⟩
  | o :: r, j, s, t, e, h => by
    unfold reloadPhi at e
    split at e
    · obtain ⟨g, e1, e2⟩ := Out.bind_eq_ok.1 e
      have hn : g.next = s.f.next + 1 := by
        unfold changeValue at e1
        split at e1
        · cases e1
        · cases e1
          rw [addUser_next]
          dsimp only
          rw [removeUser_next]
          rfl
      obtain ⟨h1, h2⟩ := reloadPhi_tight r _ _ t e2 ((h.createBb (by simp [mkReload, mkLoad])).changeValue e1)
      exact ⟨h1, by dsimp only at h2; omega⟩
    · exact reloadPhi_tight r _ s t e h

theorem reload_tight {v a u : Nat} {s t : Cg} (e : reload v a u s = .ok t) (hv : v < s.f.next) (h : Tight P s.f) : Tight P t.f ∧ s.f.next ≤ t.f.next := by
  unfold reload at e
  split at e
  · cases e; exact ⟨h, Nat.le_refl _⟩
  · split at e
    · exact reloadPhi_tight _ _ _ _ e h
    · rename_i hop
      obtain ⟨g, e1, e2⟩ := Out.bind_eq_ok.1 e
      cases e2
      have hne : (.insn s.f.next : Val) ≠ .insn v := fun e => by have := Val.insn.inj e; omega
      obtain ⟨h1, h2⟩ := changeAll_changed hne g u
      refine ⟨(h.createAt (by simp [mkReload, mkLoad]) e1).changed h1 ?_, ?_⟩
      · rw [h2, mapOps_op, (createAt_eqs e1).1, alloc_insn]
        by_cases eu : u = s.f.next
        · subst eu; rw [upd_same]; simp [mkReload, mkLoad]
        · rw [upd_ne _ _ eu]; exact hop
      · dsimp only
        rw [h1.patched.next, (createAt_users e1).2]
        omega

theorem reloads_tight {v a : Nat} : ∀ (us : List Nat) (s t : Cg), reloads v a us s = .ok t → v < s.f.next → Tight P s.f → Tight P t.f
  | [], s, t, e, _, h => by cases e; exact h
  | u :: us, s, t, e, hv, h => by
    unfold reloads at e
    obtain ⟨s1, e1, e2⟩ := Out.bind_eq_ok.1 e
    obtain ⟨h1, h2⟩ := reload_tight e1 hv h
    exact reloads_tight us s1 t e2 (by omega) h1

theorem spillOne_tight {v : Nat} {s t : Cg} {off off' : Int} (e : spillOne v s off = .ok (t, off')) (hv : v < s.f.next) (h : Tight P s.f) : Tight P t.f := by
  unfold spillOne at e
  split at e
  · cases e
  · split at e
    · cases e; exact h
    · obtain ⟨g, e1, e⟩ := Out.bind_eq_ok.1 e
      obtain ⟨k, e2, e⟩ := Out.bind_eq_ok.1 e
      cases e
      refine reloads_tight _ _ _ e2 ?_ ((h.createBb (by simp [mkAlloc])).createAt (by simp [mkStore]) e1)
      dsimp only
      rw [(createAt_users e1).2]
      show v < (s.f.next + 1) + 1
      omega

end Verif.Compile
