import Verif.Cg.LowerFn
import Verif.Cg.Fresh
import Verif.Loc.Alloc
/-!
# The lowering does not make values needed
-/
namespace Verif.Cg
open Verif Verif.IR Verif.Edit Verif.Loc Verif.Lower
open Verif.Norm (VrPos Reg)

theorem place_ren {k rn : Nat → Nat} {v : Val} {q : Nat} (h : q ∈ Loc.place k (renV rn v)) : ∃ y, v = .insn y ∧ q = k (rn y) := by
  cases v with
  | insn y => exact ⟨y, rfl, by simpa [renV, Loc.place] using h⟩
  | const => simp [renV, Loc.place] at h
  | undef => simp [renV, Loc.place] at h

/-- What a renamed instruction reads. -/
theorem reads_ren {k rn : Nat → Nat} {i : Insn} {q : Nat} (h : q ∈ reads k (mapOps (renV rn) i)) :
    q < 6 ∨ ∃ y, q = k (rn y) ∧ 0 < refs i y ∧ virt y ∈ reads virt i := by
  have hv : ∀ {y}, .insn y ∈ i.vals → 0 < refs i y := fun hy => refs_pos.2 (by unfold operands; simp [hy])
  have ha : ∀ {y}, i.op = .loadraw ∨ i.op = .storeraw → i.addr = .insn y → 0 < refs i y := fun ho e => refs_pos.2 (by
    unfold operands; rcases ho with ho | ho <;> simp [ho, raw, e])
  have hm : ∀ {y} {vs : List Val}, .insn y ∈ vs → virt y ∈ vs.flatMap (Loc.place virt) := fun hy =>
    List.mem_flatMap.2 ⟨_, hy, by simp [Loc.place]⟩
  have key : ∀ {vs : List Val}, q ∈ (vs.map (renV rn)).flatMap (Loc.place k) → ∃ y, .insn y ∈ vs ∧ q = k (rn y) := by
    intro vs hq
    obtain ⟨w, hw, hq⟩ := List.mem_flatMap.1 hq
    obtain ⟨v, hv, rfl⟩ := List.mem_map.1 hw
    obtain ⟨y, rfl, e⟩ := place_ren hq
    exact ⟨y, hv, e⟩
  have hraw : raw i.op = true → (mapOps (renV rn) i).addr = renV rn i.addr := fun h => by simp [mapOps, h]
  unfold reads at h
  rw [mapOps_op] at h
  split at h
  · exact .inl (by have := argRegs_le h; omega)
  · rename_i ho
    have : (mapOps (renV rn) i).vals.tail = i.vals.tail.map (renV rn) := by simp [mapOps]
    rw [this] at h
    obtain ⟨y, h1, h2⟩ := key h
    exact .inr ⟨y, h2, hv (List.mem_of_mem_tail h1), by unfold reads; rw [ho]; exact hm h1⟩
  · rename_i ho
    rw [hraw (by rw [ho]; rfl)] at h
    obtain ⟨y, h1, h2⟩ := place_ren h
    exact .inr ⟨y, h2, ha (.inl ho) h1, by unfold reads; rw [ho]; simp [h1, Loc.place]⟩
  · rename_i ho
    rw [hraw (by rw [ho]; rfl)] at h
    rcases List.mem_append.1 h with h | h
    · obtain ⟨y, h1, h2⟩ := key h
      exact .inr ⟨y, h2, hv h1, by unfold reads; rw [ho]; exact List.mem_append_left _ (hm h1)⟩
    · obtain ⟨y, h1, h2⟩ := place_ren h
      exact .inr ⟨y, h2, ha (.inr ho) h1, by unfold reads; rw [ho]; simp [h1, Loc.place]⟩
  · rename_i h1 h2 h3 h4
    obtain ⟨y, h5, h6⟩ := key h
    refine .inr ⟨y, h6, hv h5, ?_⟩
    unfold reads
    split
    · rename_i ho; exact absurd ho h1
    · rename_i ho; exact absurd ho h2
    · rename_i ho; exact absurd ho h3
    · rename_i ho; exact absurd ho h4
    · exact hm h5

variable {f g : Fn} {R : List Nat} {k rn rg : Nat → Nat} {H N M : Nat → List Nat}

/-- The value `y` is needed; a variable is needed if it is loaded before it is stored. -/
def NeedV (f : Fn) (y b : Nat) (xs : List Nat) : Prop :=
  if (f.insn y).op = .alloc then Loc.Needed f virt (virt y) b xs else IR.Needed f (own f) y b xs

theorem Lowd.fresh (hr : Ready f R) (h : Lowd f R g k rn rg H N M) (hfr : ∀ b ∈ R, ∀ x ∈ codeOf f b, (f.insn x).op ≠ .phi)
    (hst : ∀ a, (f.insn a).op = .alloc → ¬ Loc.Needed f virt (virt a) f.entry (f.body f.entry)) (n : Nat) :
    ¬ Loc.Needed g k (virt n) g.entry (g.body g.entry) := by
  have hent := hr.flow.entry
  have eb2 : f.body f.entry = codeOf f f.entry := by
    conv => lhs; rw [← phisOf_append f f.entry, hr.entry]
    rfl
  have eb : g.body f.entry = codeOf g f.entry := by
    conv => lhs; rw [← phisOf_append g f.entry, (h.body _ hent).1, hr.entry]
    rfl
  have inb : ∀ {b x : Nat}, x ∈ codeOf f b → x ∈ f.body b := fun hx => by rw [← phisOf_append f _]; exact List.mem_append_right _ hx
  have inp : ∀ {b x : Nat}, x ∈ phisOf f b → x ∈ f.body b := fun hx => by rw [← phisOf_append f _]; exact List.mem_append_left _ hx
  have opl : ∀ {b x y : Nat}, b ∈ R → x ∈ f.body b → 0 < refs (f.insn x) y → Live f y := fun hb hx hy => hr.tidy.closed _ _ (inBody_live hr hb hx) hy
  have big := virt_big n
  -- the value that is in `n`
  have who : ∀ {y : Nat}, Live f y → virt n = k (rn y) → y ≠ f.sp ∧ rn y = n := by
    intro y hy e
    by_cases es : y = f.sp
    · rw [es, h.sp.1, h.sp.2] at e; omega
    · rw [h.place y hy es] at e; exact ⟨es, (virt_inj e).symm⟩
  have reg : ∀ {m i : Nat}, i < 10 → g.insn m = mkAssign (.insn (rg i)) → virt n ∉ reads k (g.insn m) := by
    intro m i hi e hq
    rw [e] at hq
    simp only [reads, mkAssign, List.flatMap_cons, List.flatMap_nil, List.append_nil, Loc.place, List.mem_singleton, h.regs i hi] at hq
    omega
  have args : ∀ {vs : List Val} {i : Nat} {ns : List Nat}, ArgsAt g k rn i vs ns → ∀ m ∈ ns, virt n ∈ reads k (g.insn m) → ∃ y, .insn y ∈ vs ∧ virt n = k (rn y) := by
    intro vs
    induction vs with
    | nil => intro i ns ha m hm; cases ha; cases hm
    | cons v vs ih =>
      rintro i ns ⟨m', r, rfl, h1, -, h3⟩ m hm hq
      rcases List.mem_cons.1 hm with rfl | hm
      · rw [h1] at hq
        simp only [reads, mkAssign, List.flatMap_cons, List.flatMap_nil, List.append_nil] at hq
        obtain ⟨y, e1, e2⟩ := place_ren hq
        exact ⟨y, by simp [e1], e2⟩
      · obtain ⟨y, h4, h5⟩ := ih h3 m hm hq
        exact ⟨y, List.mem_cons_of_mem _ h4, h5⟩
  have use : ∀ {b x y xs}, b ∈ R → x ∈ f.body b → (f.insn x).op ≠ .phi → 0 < refs (f.insn x) y → virt y ∈ reads virt (f.insn x) → NeedV f y b (x :: xs) := by
    intro b x y xs hb hx hp h1 h2
    unfold NeedV
    split
    · exact .read h2
    · exact .use hp h1
  intro hneed
  rw [h.entry, eb] at hneed
  have key := needed_grown (f := f) (g := g) (k := k) (q := virt n) (R := R) (H := H) (N := N) (M := M) (T := fun _ => []) hr.flow.succs h.succs
    (fun b hb => by simpa using h.body b hb) (F := fun b xs => ∃ y, Live f y ∧ y ≠ f.sp ∧ rn y = n ∧ NeedV f y b xs) (fun b hb pre x xs ec hne => ?_)
    (fun b hb hne => ?_) hent hneed
  · -- the entry
    have hd : ∀ m ∈ H f.entry, virt n ∉ reads k (g.insn m) := fun m hm => by
      obtain ⟨-, -, i, hi, e⟩ := h.heads m hm
      exact reg (by omega) e
    obtain ⟨y, hy, hs, hn, hN⟩ := key.skip hd
    unfold NeedV at hN
    split at hN
    · rename_i ha
      rw [← eb2] at hN
      exact hst y ha hN
    · rename_i ha
      rw [← eb2] at hN
      rcases hr.defined y hN with h1 | h1 | h1
      · exact hs h1
      · obtain ⟨i, hi⟩ := List.mem_iff_getElem?.1 h1
        rcases h.args i y hi with h2 | ⟨h2, h3⟩
        · obtain ⟨u, hu, hr'⟩ := needed_ref hr hN hent (fun _ h => h)
          rw [h2 u hu] at hr'
          omega
        · refine key.written hd (rn y) h2 ?_
          rw [h3]
          have e4 := (h.heads _ h2).2.1
          rw [hn] at e4 ⊢
          simp [writes, mkAssign, Norm.Op.condJmp, e4]
      · exact ha h1
  · have hx : x ∈ codeOf f b := by rw [ec]; simp
    have hxb := inb hx
    have hnp := hfr b hb x hx
    by_cases hc : (f.insn x).op = .call
    · obtain ⟨h1, h2, h3⟩ := h.call b hb x hxb hc
      have nread : virt n ∉ reads k (g.insn x) := fun hq => by
        rw [h1] at hq
        simp only [reads, hc] at hq
        have := argRegs_le hq
        omega
      by_cases hA : ∃ m ∈ N x, virt n ∈ reads k (g.insn m)
      · obtain ⟨m, hm, hq⟩ := hA
        obtain ⟨y, hy, e⟩ := args h2 m hm hq
        have hrf : 0 < refs (f.insn x) y := refs_pos.2 (by unfold operands; simp [hy])
        have hyl := opl hb hxb hrf
        obtain ⟨e1, e2⟩ := who hyl e
        refine ⟨y, hyl, e1, e2, ?_⟩
        unfold NeedV
        rw [if_neg (not_alloc hr hb hxb (by rw [hc]; simp) (by rw [hc]; simp) (refs_pos.1 hrf) y rfl)]
        exact .use hnp hrf
      · have hM : ∀ m ∈ M x, virt n ∉ reads k (g.insn m) := by
          intro m hm
          rcases h3 with ⟨e, -⟩ | ⟨e, e2⟩
          · rw [e] at hm; cases hm
          · rw [e, List.mem_singleton] at hm
            subst hm
            exact reg (by omega) e2
        have hno : ∀ m ∈ N x ++ x :: M x, virt n ∉ reads k (g.insn m) := by
          intro m hm hq
          rcases List.mem_append.1 hm with hm | hm
          · exact hA ⟨m, hm, hq⟩
          · rcases List.mem_cons.1 hm with rfl | hm
            · exact nread hq
            · exact hM m hm hq
        obtain ⟨y, hy, hs, hn, hN⟩ := hne.skip hno
        refine ⟨y, hy, hs, hn, ?_⟩
        unfold NeedV at hN ⊢
        split at hN
        · rename_i ha
          rw [if_pos ha]
          refine .skip ?_ hN
          simp only [writes, hc]
          have := virt_big y
          simp
          omega
        · rename_i ha
          rw [if_neg ha]
          refine .skip (fun eo => ?_) hN
          rw [own_eq (by rw [hc]; rfl)] at eo
          have := Option.some.inj eo
          subst this
          rcases h3 with ⟨-, e⟩ | ⟨e, e2⟩
          · obtain ⟨u, hu, hr'⟩ := needed_ref hr hN hb (fun z hz => inb (by rw [ec]; simp [hz]))
            rw [e u hu] at hr'
            omega
          · refine hne.written hno (rn x) (by rw [e]; simp) ?_
            rw [e2]
            have e4 := h.place x hy hs
            rw [hn] at e4 ⊢
            simp [writes, mkAssign, Norm.Op.condJmp, e4]
    · obtain ⟨h1, h2, h3, h4⟩ := h.plain b hb x hxb hc
      rw [h2, h3] at hne
      rcases hne with hq | ⟨hw, y, hy, hs, hn, hN⟩
      · rw [h1] at hq
        rcases reads_ren hq with h5 | ⟨y, h5, h6, h7⟩
        · omega
        · have hyl := opl hb hxb h6
          obtain ⟨e1, e2⟩ := who hyl h5
          exact ⟨y, hyl, e1, e2, use hb hxb hnp h6 h7⟩
      · refine ⟨y, hy, hs, hn, ?_⟩
        have kx : k x = virt x := h.own x ⟨b, hr.blocks b hb, hxb⟩
        have ky : virt n = k (rn y) := by rw [h.place y hy hs, hn]
        have hwx : x = y → virt n = k x := fun e => by rw [ky, ← e, h4]
        rw [h1] at hw
        unfold NeedV at hN ⊢
        split at hN
        · rename_i ha
          rw [if_pos ha]
          refine .skip (fun hm => hw ?_) hN
          unfold writes at hm ⊢
          rw [mapOps_op]
          split at hm
          · rename_i ho; exact absurd ho hc
          · rename_i ho
            obtain ⟨w, hw1, hw2⟩ := List.mem_flatMap.1 hm
            cases w with
            | insn z =>
              simp only [Loc.place, List.mem_singleton] at hw2
              have := virt_inj hw2
              subst this
              have e : (f.insn x).vals.head? = some (.insn y) := by simpa using hw1
              have : (mapOps (renV rn) (f.insn x)).vals.head? = some (.insn (rn y)) := by simp [mapOps, e, renV]
              rw [this]
              simp [Loc.place, ky]
            | const => simp [Loc.place] at hw2
            | undef => simp [Loc.place] at hw2
          all_goals first | (simp at hm; done) | skip
          split at hm
          · simp at hm
          · have := virt_inj (List.mem_singleton.1 hm)
            rw [hwx this.symm]
            simp_all
        · rename_i ha
          rw [if_neg ha]
          refine .skip (fun eo => hw ?_) hN
          have hv : void (f.insn x).op = false := by
            unfold Lower.own at eo
            split at eo
            · cases eo
            · rename_i h; simpa using h
          rw [own_eq hv] at eo
          have := Option.some.inj eo
          subst this
          rw [hwx rfl]
          revert hv ha hc hnp
          unfold writes
          rw [mapOps_op]
          cases (f.insn x).op <;> simp [void, Norm.Op.condJmp]
  · obtain ⟨c, hc, ⟨x, hx, y', hy, e⟩ | ⟨hph, h1⟩⟩ := (hne : Leaves _ _ _ _ _ _ b)
    · have hcR := hr.flow.succs b hb c hc
      have hp := phisOf_phi hx
      have hxb := inp hx
      obtain ⟨h1, -⟩ := h.plain c hcR x hxb (by rw [hp]; simp)
      rw [h1] at hy
      simp only [mapOps, hp, if_true, List.mem_map] at hy
      obtain ⟨o, ho, eo⟩ := hy
      obtain ⟨o1, o2⟩ := o
      cases o2 with
      | insn y =>
        simp only [renV, Prod.mk.injEq, Val.insn.injEq] at eo
        obtain ⟨rfl, rfl⟩ := eo
        have hop : .insn y ∈ operands (f.insn x) := by
          unfold operands
          simp only [hp, if_true, List.mem_append, List.mem_map]
          exact .inl (.inr ⟨_, ho, rfl⟩)
        have hyl := opl hcR hxb (refs_pos.2 hop)
        obtain ⟨e1, e2⟩ := who hyl e
        refine ⟨y, hyl, e1, e2, ?_⟩
        unfold NeedV
        rw [if_neg (not_alloc hr hcR hxb (by rw [hp]; simp) (by rw [hp]; simp) hop y rfl)]
        exact .phi hc hxb hp ho
      | const => simp [renV] at eo
      | undef => simp [renV] at eo
    · have hcR := hr.flow.succs b hb c hc
      rw [h.head c (fun e => hr.loop b hb (e ▸ hc))] at h1
      obtain ⟨y, hy, hs, hn, hN⟩ := h1
      refine ⟨y, hy, hs, hn, ?_⟩
      have ne : ∀ x ∈ phisOf f c, x ≠ y := by
        rintro x hx rfl
        apply hph x hx
        have h4 := (h.plain c hcR x (inp hx) (by rw [phisOf_phi hx]; simp)).2.2.2
        have := h.place x hy hs
        rw [hn] at this
        rw [← this, ← hn, h4]
      unfold NeedV at hN ⊢
      split at hN
      · rename_i ha
        rw [if_pos ha]
        exact .edge hc (fun x hx e => ne x hx (virt_inj e).symm) hN
      · rename_i ha
        rw [if_neg ha]
        refine .jump hc ?_
        rw [← phisOf_append f c]
        refine needed_phis _ (fun p hp e => ne p hp ?_) hN
        unfold Lower.own at e
        split at e
        · cases e
        · exact Option.some.inj e

end Verif.Cg
