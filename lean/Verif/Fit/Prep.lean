import Verif.Fit.Consts
/-!
# Functions of which nothing is spilled
-/
namespace Verif.Fit
open Verif Verif.IR Verif.Edit Verif.Cg Verif.Loc Verif.Compile
open Verif.Lower (Ready Neat)
open Verif.Norm (VrPos Reg Op)

/-- No variables, no arrays and no copies. -/
structure Simple (f : Fn) (R : List Nat) : Prop where
  array : ∀ b ∈ R, ∀ x ∈ f.body b, (f.insn x).op ≠ .allocarray
  var : ∀ b ∈ R, ∀ x ∈ f.body b, (f.insn x).op ≠ .alloc ∧ (f.insn x).op ≠ .load ∧ (f.insn x).op ≠ .store
  copy : ∀ b ∈ R, ∀ x ∈ f.body b, (f.insn x).op = .assign → ∀ y, (f.insn x).vals ≠ [.insn y]

/-! ## Rounds in which nothing is spilled -/

theorem spill_off : ∀ {vs : List Nat} {s t : Cg} {off off' : Int}, spill vs s off = .ok (t, off') → off' = off - 8 * vs.length
  | [], s, t, off, off', e => by cases e; simp
  | v :: vs, s, t, off, off', e => by
    unfold spill at e
    obtain ⟨⟨s1, o1⟩, e1, e⟩ := Out.bind_eq_ok.1 e
    have h1 : o1 = off - 8 := by
      unfold spillOne at e1
      split at e1
      · cases e1
      · split at e1
        · cases e1; rfl
        · dsimp only at e1
          obtain ⟨h, -, e1⟩ := Out.bind_eq_ok.1 e1
          obtain ⟨t, -, e1⟩ := Out.bind_eq_ok.1 e1
          cases e1; rfl
    have := spill_off e
    simp only [List.length_cons]
    dsimp only at this
    omega

theorem allocate_le {R : List Nat} {rg : Nat → Nat} : ∀ (n : Nat) (s : Cg) (off : Int) (al : Allocated), Compile.allocate R rg n s off = .ok al → al.off ≤ off ∧ (al.off = off → al.s = s)
  | 0, s, off, al, e => by cases e
  | n + 1, s, off, al, e => by
    unfold Compile.allocate at e
    obtain ⟨⟨l, s1⟩, e1, e⟩ := Out.bind_eq_ok.1 e
    obtain ⟨⟨s2, vs⟩, e2, e⟩ := Out.bind_eq_ok.1 e
    dsimp only at e e2
    cases vs with
    | nil => cases e; exact ⟨Int.le_refl _, fun _ => rfl⟩
    | cons v vs =>
      dsimp only at e
      obtain ⟨⟨t, o⟩, e3, e⟩ := Out.bind_eq_ok.1 e
      have h1 := spill_off e3
      have h2 := (allocate_le n t o al e).1
      simp only [List.length_cons] at h1
      exact ⟨by omega, fun h => by omega⟩

theorem spillArrays_none : ∀ (xs : List Nat) (s : Cg) (off : Int), (∀ x ∈ xs, (s.f.insn x).op ≠ .allocarray) → spillArrays xs s off = .ok (s, off)
  | [], _, _, _ => rfl
  | x :: xs, s, off, h => by
    unfold spillArrays
    rw [if_neg (h x List.mem_cons_self)]
    exact spillArrays_none xs s off fun y hy => h y (List.mem_cons_of_mem _ hy)

/-! ## The lowered function -/

theorem argsAt_mem {g : Fn} {k rn : Nat → Nat} : ∀ {vs : List Val} {i : Nat} {ns : List Nat}, ArgsAt g k rn i vs ns → ∀ n ∈ ns, ∃ v ∈ vs, g.insn n = mkAssign (renV rn v) ∧ i < k n ∧ k n ≤ i + vs.length
  | [], _, _, h, n, hn => by cases h; cases hn
  | v :: vs, i, ns, ⟨m, r, e, h1, h2, h3⟩, n, hn => by
    subst e
    simp only [List.length_cons]
    rcases List.mem_cons.1 hn with rfl | hn
    · exact ⟨v, List.mem_cons_self, h1, by omega, by omega⟩
    · obtain ⟨w, hw, h4, h5, h6⟩ := argsAt_mem h3 n hn
      exact ⟨w, List.mem_cons_of_mem _ hw, h4, by omega, by omega⟩

/-- The instructions of the lowered function. -/
inductive Kind (f : Fn) (R : List Nat) (g : Fn) (k rn rg : Nat → Nat) (b x : Nat) : Prop
  | plain : x ∈ f.body b → (f.insn x).op ≠ .call → g.insn x = mapOps (renV rn) (f.insn x) → Kind f R g k rn rg b x
  | call : x ∈ f.body b → (f.insn x).op = .call → g.insn x = { f.insn x with vals := [] } → Kind f R g k rn rg b x
  | fromReg (i : Nat) : i < 10 → k x = virt x → g.insn x = mkAssign (.insn (rg i)) → Kind f R g k rn rg b x
  | toReg (y : Nat) (v : Val) : y ∈ f.body b → (f.insn y).op = .call → v ∈ (f.insn y).vals → 1 ≤ k x → k x ≤ 5 → g.insn x = mkAssign (renV rn v) → Kind f R g k rn rg b x

variable {f g : Fn} {R : List Nat} {k rn rg : Nat → Nat} {H N M : Nat → List Nat}

theorem kind (hr : Ready f R) (h : Lowd f R g k rn rg H N M) {b x : Nat} (hb : b ∈ R) (hx : x ∈ g.body b) : Kind f R g k rn rg b x := by
  have inc : ∀ {b x}, x ∈ codeOf f b → x ∈ f.body b := fun hx => by rw [← phisOf_append f _]; exact List.mem_append_right _ hx
  have inp : ∀ {b x}, x ∈ phisOf f b → x ∈ f.body b := fun hx => by rw [← phisOf_append f _]; exact List.mem_append_left _ hx
  have old : ∀ {x}, x ∈ f.body b → Kind f R g k rn rg b x := fun {x} hx => by
    by_cases hc : (f.insn x).op = .call
    · exact .call hx hc (h.call b hb x hx hc).1
    · exact .plain hx hc (h.plain b hb x hx hc).1
  rw [← phisOf_append g b, (h.body b hb).1, (h.body b hb).2] at hx
  rcases List.mem_append.1 hx with hx | hx
  · exact old (inp hx)
  · rcases List.mem_append.1 hx with hx | hx
    · by_cases he : b = f.entry
      · subst he
        obtain ⟨-, h1, i, hi, h2⟩ := h.heads x hx
        exact .fromReg (i + 1) (by omega) h1 h2
      · rw [h.head b he] at hx; cases hx
    · obtain ⟨y, hy, hx⟩ := List.mem_flatMap.1 hx
      have hyb := inc hy
      by_cases hc : (f.insn y).op = .call
      · obtain ⟨-, h2, h3⟩ := h.call b hb y hyb hc
        rcases List.mem_append.1 hx with hx | hx
        · obtain ⟨v, hv, h4, h5, h6⟩ := argsAt_mem h2 x hx
          have := (hr.arity b hb y hyb hc).2
          exact .toReg y v hyb hc hv (by omega) (by omega) h4
        · rcases List.mem_cons.1 hx with rfl | hx
          · exact old hyb
          · rcases h3 with ⟨h3, -⟩ | ⟨h3, h4⟩
            · rw [h3] at hx; cases hx
            · rw [h3] at hx
              cases List.mem_singleton.1 hx
              exact .fromReg 0 (by omega) (h.place y (.inr (.inr ⟨b, hr.blocks b hb, hyb⟩)) (hr.tidy.fixed b (hr.blocks b hb) y hyb).1) h4
      · obtain ⟨-, h1, h2, -⟩ := h.plain b hb y hyb hc
        rw [h1, h2] at hx
        cases List.mem_singleton.1 hx
        exact old hyb

theorem alloc_of_place {pos : Nat → VrPos} {x : Nat} (h : places pos x ≤ 12) : (pos x).allocated = true := by
  cases e : (pos x).allocated with
  | true => rfl
  | false =>
    rw [places_free e] at h
    have := Cg.virt_big x
    omega

/-- What the steps before the rounds make of a simple function. -/
structure Prepared (f : Fn) (R : List Nat) (s t : Cg) (rn : Nat → Nat) (H N M K : Nat → List Nat) : Prop where
  lowd : Lowd f R t.f (places t.pos) rn (rgOf f) H N M
  grown : Grown (initCg f).f t.f H N M (fun _ => [])
  base : Base t.f R
  const : CInv t.f t.pos (fun x => x ∈ R.flatMap t.f.body) s K
  used : ∀ u : Nat → Bool, (∀ a ∈ f.args, u a = false → f.users a = []) → (H f.entry).length ≤ (f.args.filter u).length

theorem prepared {s : Cg} {off : Int} (hr : Ready f R) (hn : Neat f R) (hS : Simple f R) (e : prepare f R = .ok (s, off)) :
    off = 0 ∧ ∃ t rn H N M K, Prepared f R s t rn H N M K := by
  obtain ⟨s0, rn, H, N, M, e0, h, C, A, hl, hC, hu⟩ := lower_ok hr
  have h0 := lower_ready hr hn h hl hC
  have hB := h0.base
  have e1 : spillArray R s0 0 = .ok (s0, 0) := by
    refine spillArrays_none _ _ _ fun x hx => ?_
    obtain ⟨b, hb, hx⟩ := List.mem_flatMap.1 hx
    cases kind hr h hb hx with
    | plain h1 _ h2 => rw [h2]; exact hS.array b hb x h1
    | call h1 h3 h2 => rw [h2]; exact hS.array b hb x h1
    | fromReg i _ _ h2 => rw [h2]; simp [mkAssign]
    | toReg y v _ _ _ _ _ h2 => rw [h2]; simp [mkAssign]
  obtain ⟨s1, K, e2, hI⟩ := CInv.loop hB (R.flatMap s0.f.body) s0 _ _ (CInv.start hB s0.pos) (fun x hx => by
    obtain ⟨b, hb, hx⟩ := List.mem_flatMap.1 hx
    exact ⟨⟨b, hB.sub b hb, hx⟩, fun h => h⟩) (nodup_bodies hB.tidy hB.sub hr.nodup)
  unfold prepare at e
  rw [e0, Out.ok_bind, e1, Out.ok_bind] at e
  dsimp only at e
  have : spillConst R s0 = constsToRegs (R.flatMap s0.f.body) s0 := rfl
  rw [this, e2, Out.ok_bind] at e
  cases e
  refine ⟨rfl, s0, rn, H, N, M, K, h, hl.core.grown, hB, ?_, hu⟩
  have : (fun y => False ∨ y ∈ R.flatMap s0.f.body) = fun x => x ∈ R.flatMap s0.f.body := by funext y; simp
  rw [← this]
  exact hI

variable {s t : Cg} {K : Nat → List Nat}

/-- An instruction of the prepared function. -/
theorem Prepared.mem (h : Prepared f R s t rn H N M K) {b x : Nat} (hb : b ∈ R) (hx : x ∈ s.f.body b) :
    (x ∈ t.f.body b ∧ (s.f.insn x = t.f.insn x ∨ ∃ j n, Unfit (t.f.insn x) j ∧ t.f.next ≤ n ∧ n < s.f.next ∧ s.f.insn x = fitted (t.f.insn x) j n)) ∨
    (t.f.next ≤ x ∧ x < s.f.next ∧ ∃ k c t b, s.f.insn x = mkAssign (.const k c t b)) := by
  rcases h.const.mem (h.base.sub b hb) hx with h1 | ⟨h1, h2⟩
  · refine .inl ⟨h1, ?_⟩
    rcases h.const.cases (h.base.tidy.lt x (.inr (.inr ⟨b, h.base.sub b hb, h1⟩))) with ⟨h2, -⟩ | ⟨j, n, -, hu, -, n1, n2, -, e2⟩
    · exact .inl h2
    · exact .inr ⟨j, n, hu, n1, n2, e2⟩
  · obtain ⟨v, e, hv⟩ := h.const.new x h1 h2
    obtain ⟨k, c, t, b, e2⟩ := isConst_iff.1 hv
    cases e2
    exact .inr ⟨h1, h2, k, c, t, b, e⟩

theorem Prepared.pos (h : Prepared f R s t rn H N M K) {y : Nat} (hy : Live t.f y) : s.pos y = t.pos y := h.const.pos y (h.base.tidy.lt y hy)

/-- Every copy has one side in a machine register. -/
theorem Prepared.copies {d : BitVec 16} (h : Prepared f R s t rn H N M K) (hr : Ready f R) (hF : Fits f R d) (hS : Simple f R) {p : Nat × Nat} (hp : p ∈ copiesOf s.f R) :
    ((s.pos p.1).allocated = true ∧ (s.pos p.2).allocated = false) ∨ ((s.pos p.1).allocated = false ∧ (s.pos p.2).allocated = true) := by
  unfold copiesOf at hp
  obtain ⟨x, hx, hp⟩ := List.mem_filterMap.1 hp
  obtain ⟨b, hb, hx⟩ := List.mem_flatMap.1 hx
  have hL : ∀ {x}, x ∈ t.f.body b → Live t.f x := fun hx => .inr (.inr ⟨b, h.base.sub b hb, hx⟩)
  rcases h.mem hb hx with ⟨hx, e | ⟨j, n, hu, -, -, e⟩⟩ | ⟨-, -, k, c, t, b', e⟩
  · rw [e] at hp
    cases kind hr h.lowd hb hx with
    | plain h1 h3 h2 =>
      exfalso
      rw [h2] at hp
      obtain ⟨v1, v2, v3⟩ := hS.var b hb x h1
      have hop : (mapOps (renV rn) (f.insn x)).op = (f.insn x).op := rfl
      split at hp
      · rename_i y ho hv
        refine v1 ?_ |>.elim
        exfalso
        have hv : (f.insn x).vals.map (renV rn) = [.insn y] := hv
        rcases e4 : (f.insn x).vals with _ | ⟨v, _ | ⟨_, _⟩⟩ <;> rw [e4] at hv <;> simp at hv
        cases v with
        | insn z => exact hS.copy b hb x h1 ho z e4
        | _ => cases hv
      · rename_i ho _; exact v3 ho
      · rename_i ho _; exact v2 ho
      · cases hp
    | call h1 h3 h2 =>
      exfalso
      rw [h2] at hp
      dsimp only at hp
      rw [h3] at hp
      cases hp
    | fromReg i hi h1 h2 =>
      rw [h2] at hp
      cases hp
      have hrg := hr.five
      have e1 := h.lowd.regs i hi
      right
      constructor
      · rw [h.pos (hL hx)]; exact (Loc.places_virt h1).2
      · rw [h.pos (h.base.tidy.closed x _ (hL hx) (by rw [h2, refs_pos]; simp [operands, mkAssign, raw]))]
        exact alloc_of_place (by dsimp only; omega)
    | toReg y v h1 h3 h4 h5 h6 h2 =>
      rw [h2] at hp
      cases v with
      | insn z =>
        cases hp
        left
        constructor
        · rw [h.pos (hL hx)]; exact alloc_of_place (by omega)
        · rw [h.pos (h.base.tidy.closed x _ (hL hx) (by rw [h2, refs_pos]; simp [operands, mkAssign, raw, renV]))]
          have hpl := ((hF.insn y ⟨b, hb, h1⟩).callArg h3 h4).1 z rfl
          have hz : Live f z := hr.tidy.closed y z (.inr (.inr ⟨b, hr.blocks b hb, h1⟩)) (refs_pos.2 (by rw [operands_call h3]; exact h4))
          exact (Loc.places_virt (h.lowd.place z hz hpl.2.2)).2
      | _ => cases hp
  · exfalso
    rw [e] at hp
    have : (fitted (t.f.insn x) j n).op = (t.f.insn x).op := rfl
    rw [this] at hp
    split at hp
    · rename_i e5 _; rcases hu.op with h | h <;> rw [e5] at h <;> cases h
    · rename_i e5 _; rcases hu.op with h | h <;> rw [e5] at h <;> cases h
    · rename_i e5 _; rcases hu.op with h | h <;> rw [e5] at h <;> cases h
    · cases hp
  · rw [e] at hp
    cases hp

/-- Machine registers wait nowhere else. -/
theorem Prepared.tame (h : Prepared f R s t rn H N M K) (hr : Ready f R) {u : Nat → Bool} (hu : ∀ a ∈ f.args, u a = false → f.users a = [])
    (hone : (f.args.filter u).length ≤ 1) : Tame s.f R (places s.pos) := by
  refine const_tame h.base h.const (lowd_tame hr h.lowd (Nat.le_trans (h.used u hu) hone)) fun b hb x hx ho => ?_
  have hxb : x ∈ t.f.body b := by rw [← phisOf_append t.f b]; exact List.mem_append_right _ hx
  cases kind hr h.lowd hb hxb with
  | plain h1 h2 h3 => exact plain_calm hr h.lowd hb h1 h2
  | call h1 h2 h3 => rw [h3] at ho; dsimp only at ho; rw [h2] at ho; simp [Norm.Op.binAlu, Norm.Op.condJmp] at ho
  | fromReg i _ _ h3 => rw [h3] at ho; simp [mkAssign, Norm.Op.binAlu, Norm.Op.condJmp] at ho
  | toReg y v _ _ _ _ _ h3 => rw [h3] at ho; simp [mkAssign, Norm.Op.binAlu, Norm.Op.condJmp] at ho

end Verif.Fit
