import Verif.IR.PhiSim
/-!
# Where the value of a computation is still what its operands say
-/
namespace Verif.IR
open Verif Verif.Edit

theorem ends_eq (o : Op) : ends o = !straight o := by cases o <;> rfl

/-- A binary computation evaluates its operands. -/
theorem exec_bin {W : World} {x : Nat} {i : Insn} {σ τ : St} (hb : i.op.binAlu = true) (h : exec W x i σ = some τ) :
    ∃ v0 v1 o w y z, i.vals = [v0, v1] ∧ Flat.aluOp i.op = some o ∧ Flat.width i.aluOp = some w ∧ eval σ v0 = some y ∧
      eval σ v1 = some z ∧ τ = σ.set x (Bpf.alu w o y z) := by
  obtain ⟨op, vals, phi, addr, addrOff, addrKind, aluOp, vrType, bb1, bb2, aux, immKind, imm64⟩ := i
  dsimp only at hb ⊢
  have bin : ∀ (v0 v1 : Val) (o : Option Bpf.AluOp) (w : Option Bool),
      (do
        let o ← o
        let w ← w
        let y ← eval σ v0
        let z ← eval σ v1
        some (σ.set x (Bpf.alu w o y z))) = some τ → ∃ o' w' y z, o = some o' ∧ w = some w' ∧ eval σ v0 = some y ∧
      eval σ v1 = some z ∧ τ = σ.set x (Bpf.alu w' o' y z) := by
    intro v0 v1 o w h
    simp only [Option.bind_eq_bind, Option.bind_eq_some_iff] at h
    obtain ⟨_, e1, _, e2, _, h1, _, h2, h⟩ := h
    cases h; exact ⟨_, _, _, _, e1, e2, h1, h2, rfl⟩
  have key : ∃ v0 v1, vals = [v0, v1] ∧ ∃ o' w' y z, Flat.aluOp op = some o' ∧ Flat.width aluOp = some w' ∧ eval σ v0 = some y ∧
      eval σ v1 = some z ∧ τ = σ.set x (Bpf.alu w' o' y z) := by
    cases op <;> first | (cases hb; done) |
      (rcases vals with _ | ⟨v0, _ | ⟨v1, _ | ⟨_, _⟩⟩⟩ <;> first | (cases h; done) | exact ⟨v0, v1, rfl, bin v0 v1 _ _ h⟩)
  obtain ⟨v0, v1, e, o, w, y, z, h⟩ := key
  exact ⟨v0, v1, o, w, y, z, e, h⟩

theorem exec_bin_eq {W : World} {x : Nat} {i : Insn} {σ : St} {v0 v1 : Val} {o : Bpf.AluOp} {w : Bool} {y z : BitVec 64}
    (hb : i.op.binAlu = true) (h1 : i.vals = [v0, v1]) (h2 : Flat.aluOp i.op = some o) (h3 : Flat.width i.aluOp = some w)
    (h4 : eval σ v0 = some y) (h5 : eval σ v1 = some z) : exec W x i σ = some (σ.set x (Bpf.alu w o y z)) := by
  obtain ⟨op, vals, phi, addr, addrOff, addrKind, aluOp, vrType, bb1, bb2, aux, immKind, imm64⟩ := i
  dsimp only at hb h1 h2 h3
  subst h1
  cases op <;> first | (cases hb; done) | (simp only [exec, h2, h3, h4, h5, Option.bind_eq_bind, Option.bind_some])

theorem St.set_same (σ : St) (x : Nat) : σ.set x (σ.env x) = σ := by
  unfold St.set
  have : (fun y => if y = x then σ.env x else σ.env y) = σ.env := by
    funext y; split
    · rename_i e; rw [e]
    · rfl
  rw [this]

/-- Doing a computation again changes nothing. -/
theorem exec_again {W : World} {x : Nat} {i : Insn} {σ τ : St} (hb : i.op.binAlu = true) (h : exec W x i σ = some τ)
    (hx : refs i x = 0) : exec W x i τ = some τ := by
  obtain ⟨v0, v1, o, w, y, z, h1, h2, h3, h4, h5, rfl⟩ := exec_bin hb h
  have hv : ∀ v ∈ i.vals, eval (σ.set x (Bpf.alu w o y z)) v = eval σ v := fun v hv => by
    cases v with
    | const => rfl
    | undef => rfl
    | insn a =>
      have : a ≠ x := by
        rintro rfl
        have : 0 < i.vals.count (.insn a) := List.count_pos_iff.2 hv
        unfold refs at hx; omega
      simp [eval, St.set, this]
  rw [exec_bin_eq hb h1 h2 h3 (by rw [hv v0 (by rw [h1]; simp)]; exact h4) (by rw [hv v1 (by rw [h1]; simp)]; exact h5)]
  congr 1
  unfold St.set
  dsimp only
  congr 1
  funext a
  split <;> rfl

theorem exec_same {W : World} {x : Nat} {i : Insn} {σ τ : St} (hb : i.op.binAlu = true) (h : exec W x i σ = some σ)
    (hx : τ.env x = σ.env x) (hy : ∀ y, 0 < refs i y → τ.env y = σ.env y) : exec W x i τ = some τ := by
  obtain ⟨v0, v1, o, w, y, z, h1, h2, h3, h4, h5, h6⟩ := exec_bin hb h
  have hv : ∀ v ∈ i.vals, eval τ v = eval σ v := fun v hv => by
    cases v with
    | const => rfl
    | undef => rfl
    | insn a =>
      have : 0 < i.vals.count (.insn a) := List.count_pos_iff.2 hv
      simp only [eval]; rw [hy a (by unfold refs; omega)]
  rw [exec_bin_eq hb h1 h2 h3 (by rw [hv v0 (by rw [h1]; simp)]; exact h4) (by rw [hv v1 (by rw [h1]; simp)]; exact h5)]
  have : Bpf.alu w o y z = σ.env x := by
    rw [congrArg St.env h6]; simp [St.set]
  rw [this, ← hx, St.set_same]

/-- The computation `p` in block `a`. -/
structure Comp (f : Fn) (p a : Nat) : Prop where
  ok : Ok f
  ssa : Ssa f
  ord : Ordered f
  last : EndsLast f
  block : a ∈ f.allBbs
  mem : p ∈ f.body a
  op : (f.insn p).op.binAlu = true

/-- `p` has been computed and its operands have not been computed again since. -/
def Valid (f : Fn) (p a : Nat) : List Nat → List Nat → Prop
  | [], _ => False
  | b :: h, r => if b = a then p ∉ r else ∃ l1 l2, b :: h = l1 ++ a :: l2 ∧ a ∉ l1 ∧ ∀ c ∈ l1, ∀ y ∈ f.body c, refs (f.insn p) y = 0

variable {W : World} {f : Fn} {p a : Nat}

theorem Comp.blk (C : Comp f p a) {b z : Nat} (hz : z ∈ f.body b) : b ∈ f.allBbs := Classical.byContradiction fun hn => by
  rw [C.ok.only b hn] at hz; cases hz

theorem Comp.par (C : Comp f p a) {b z : Nat} (hz : z ∈ f.body b) : f.parent z = b := C.ok.tidy.parent b (C.blk hz) z hz

theorem Comp.uniq (C : Comp f p a) {b c z : Nat} (hb : z ∈ f.body b) (hc : z ∈ f.body c) : b = c := (C.par hb).symm.trans (C.par hc)

theorem Comp.notPhi (C : Comp f p a) : (f.insn p).op ≠ .phi := by
  intro e
  have := C.op
  rw [e] at this; cases this

theorem Comp.straight (C : Comp f p a) : straight (f.insn p).op = true := by
  have := C.op
  generalize (f.insn p).op = o at this
  cases o <;> first | rfl | (cases this; done)

theorem Comp.plain (C : Comp f p a) : plain (f.insn p).op = true := by
  have := C.notPhi
  simp [IR.plain, C.straight, this]

/-- One more instruction of the block. -/
theorem Valid.exec (C : Comp f p a) {b z : Nat} {h r : List Nat} (hr : Reach f b) (hs : z :: r <:+ f.body b) (hz : z ≠ p)
    (hv : Valid f p a (b :: h) r) : Valid f p a (b :: h) (z :: r) ∧ refs (f.insn p) z = 0 := by
  obtain ⟨l, hl⟩ := hs
  simp only [Valid] at hv ⊢
  by_cases hb : b = a
  · rw [if_pos hb] at hv ⊢
    subst hb
    have hn : p ∉ z :: r := by
      simp only [List.mem_cons, not_or]; exact ⟨fun e => hz e.symm, hv⟩
    refine ⟨hn, ?_⟩
    have hp := C.mem
    rw [← hl, List.mem_append] at hp
    rcases hp with hp | hp
    · obtain ⟨l1, l2, e⟩ := List.append_of_mem hp
      refine C.ord b hr l1 p (l2 ++ z :: r) (by rw [← hl, e]; simp) C.notPhi z (by simp)
    · exact absurd hp hn
  · rw [if_neg hb] at hv ⊢
    refine ⟨hv, ?_⟩
    obtain ⟨l1, l2, e, _, hn⟩ := hv
    cases l1 with
    | nil => simp at e; exact absurd e.1 hb
    | cons c l1 =>
      have : b = c := by simp at e; exact e.1
      exact hn b (by simp [this]) z (by rw [← hl]; simp)

/-- Entering a block. -/
theorem Valid.enter (C : Comp f p a) {b q : Nat} {h r : List Nat} (hl : Leaves f q r) (hv : Valid f p a (b :: q :: h) (codeOf f b)) :
    Valid f p a (q :: h) r ∧ ∀ z ∈ f.body b, refs (f.insn p) z = 0 ∧ z ≠ p := by
  simp only [Valid] at hv ⊢
  by_cases hb : b = a
  · rw [if_pos hb] at hv
    subst hb
    refine absurd ?_ hv
    have hp := C.mem
    have : f.body b = phisOf f b ++ codeOf f b := List.takeWhile_append_dropWhile.symm
    rw [this, List.mem_append] at hp
    rcases hp with hp | hp
    · have := (takeWhile_mem _ _ p hp).2
      exact absurd (by simpa using this) C.notPhi
    · exact hp
  · rw [if_neg hb] at hv
    obtain ⟨l1, l2, e, ha, hn⟩ := hv
    cases l1 with
    | nil => simp at e; exact absurd e.1 hb
    | cons c l1 =>
      simp only [List.cons_append, List.cons.injEq] at e
      obtain ⟨rfl, e⟩ := e
      refine ⟨?_, fun z hz => ⟨hn b (by simp) z hz, ?_⟩⟩
      · split
        · rename_i hq
          subst hq
          intro hm
          obtain ⟨⟨l, hl⟩, hd⟩ := hl
          cases r with
          | nil => cases hm
          | cons z r =>
            have hz := hd z rfl
            have := C.last q l z r hl.symm (by rw [ends_eq, hz]; rfl)
            subst this
            rw [List.mem_singleton] at hm
            subst hm
            rw [C.straight] at hz; cases hz
        · exact ⟨l1, l2, e, fun h => ha (by simp [h]), fun c hc => hn c (by simp [hc])⟩
      · rintro rfl
        exact hb (C.uniq hz C.mem)

/-- In front of a user of `p`. -/
theorem Comp.valid (C : Comp f p a) {b z : Nat} {h r : List Nat} (hw : Walk f (b :: h)) (hs : z :: r <:+ f.body b)
    (hz : (f.insn z).op ≠ .phi) (hu : 0 < refs (f.insn z) p) : Valid f p a (b :: h) (z :: r) := by
  obtain ⟨l, hl⟩ := hs
  have hib : InBody f p := ⟨a, C.block, C.mem⟩
  have hd : Dom f a b := by
    have := C.ssa.uses b z (by rw [← hl]; simp) hz p hib hu
    rw [C.par C.mem] at this; exact this
  simp only [Valid]
  split
  · intro hm
    have := C.ord b ⟨h, hw⟩ l z r hl.symm hz p hm
    omega
  · rename_i hne
    obtain ⟨l1, l2, e, hn, hw'⟩ := hw.mem (hd h hw)
    refine ⟨l1, l2, e, hn, fun c hc y hy => ?_⟩
    apply Classical.byContradiction
    intro hr
    have hyb : InBody f y := ⟨c, C.blk hy, hy⟩
    have hd2 : Dom f c a := by
      have := C.ssa.uses a p C.mem C.notPhi y hyb (by omega)
      rw [C.par hy] at this; exact this
    have hca : c ≠ a := fun e => hn (by rw [← e]; exact hc)
    obtain ⟨k1, k2, e', _⟩ := List.eq_append_cons_of_mem hc
    have e2 : b :: h = k1 ++ c :: (k2 ++ a :: l2) := by rw [e, e']; simp
    have hw2 : Walk f (c :: (k2 ++ a :: l2)) := by rw [e2] at hw; exact hw.suffix
    obtain ⟨m', h1, h2⟩ := avoid hca (fun m hm => by
      rcases List.mem_cons.1 (hd2 m hm) with h | h
      · exact absurd h hca
      · exact h) _ _ (Nat.le_refl _) hw2
    have h3 : Walk f (k1 ++ c :: m') := by rw [e2] at hw; exact Walk.splice h1 hw
    have hb : ∃ t, k1 ++ c :: m' = b :: t := by
      cases k1 with
      | nil =>
        have : b = c := by simp at e2; exact e2.1
        exact ⟨m', by rw [this]; rfl⟩
      | cons d k1 =>
        have : b = d := by simp at e2; exact e2.1
        exact ⟨k1 ++ c :: m', by rw [this]; rfl⟩
    obtain ⟨t, ht⟩ := hb
    rw [ht] at h3
    have := hd t h3
    rw [← ht] at this
    rcases List.mem_append.1 this with h | h
    · exact hn (by rw [e']; simp [h])
    · exact h2 h

/-- The states, when nothing has changed but how some users of `p` compute their value. -/
def CompRel (W : World) (f : Fn) (p a : Nat) (h r : List Nat) (σ σ' : St) : Prop :=
  σ' = σ ∧ (Valid f p a h r → exec W p (f.insn p) σ = some σ)

/-- Users of `p` may compute their value in another way from the operands of `p`. -/
theorem Comp.skips {g : Fn} (C : Comp f p a) (hbody : g.body = f.body) (hentry : g.entry = f.entry) (hsuccs : g.succs = f.succs)
    (hins : ∀ b, ∀ z ∈ f.body b, g.insn z = f.insn z ∨
      (0 < refs (f.insn z) p ∧ IR.plain (f.insn z).op = true ∧ IR.plain (g.insn z).op = true ∧
        ∀ σ τ, exec W p (f.insn p) σ = some σ → exec W z (f.insn z) σ = some τ → exec W z (g.insn z) σ = some τ)) :
    Skips W f g (fun _ => false) (CompRel W f p a) := by
  have hplain : ∀ {o : Op}, IR.plain o = true → o ≠ .phi ∧ IR.straight o = true := fun h => by
    simp only [IR.plain, Bool.and_eq_true, Bool.not_eq_true', decide_eq_false_iff_not] at h
    exact ⟨h.2, h.1⟩
  refine ⟨fun b => by rw [hbody]; exact (List.filter_eq_self.2 (fun _ _ => rfl)).symm, hentry, hsuccs, C.ok.phis, ?_, ?_, ?_, ?_, ?_, ?_⟩
  · intro b z hz _
    rcases hins b z hz with h | ⟨_, h1, h2, _⟩
    · rw [h]; exact .inl ⟨rfl, rfl, rfl⟩
    · exact .inr ⟨h1, h2⟩
  · intro b h hw z r hz _ σ σ' τ hr hp _ he
    have hm := hz.subset (List.mem_cons_self ..)
    obtain ⟨rfl, hv⟩ := hr
    refine ⟨τ, ?_, rfl, fun hv' => ?_⟩
    · rcases hins b z hm with h | ⟨h1, _, _, h2⟩
      · rw [h]; exact he
      · exact h2 _ _ (hv (C.valid hw hz hp h1)) he
    · by_cases e : z = p
      · subst e
        refine exec_again C.op he ?_
        obtain ⟨l, hl⟩ := hz
        exact C.ord b ⟨h, hw⟩ l z r hl.symm hp z (by simp)
      · obtain ⟨h1, h2⟩ := Valid.exec C ⟨h, hw⟩ hz e hv'
        refine exec_same C.op (hv h1) (exec_env he fun e' => e e'.symm) fun y hy => exec_env he ?_
        rintro rfl
        omega
  · intro b h hw z r hz _ σ σ' t hr hc ht
    obtain ⟨rfl, _⟩ := hr
    rcases hins b z (hz.subset (List.mem_cons_self ..)) with h | ⟨_, h1, _, _⟩
    · rw [h]; exact ht
    · have := (hplain h1).2
      simp [IR.straight, hc] at this
  · intro b h hw z r hz _ σ σ' v y hr hc hv he
    obtain ⟨rfl, _⟩ := hr
    rcases hins b z (hz.subset (List.mem_cons_self ..)) with h | ⟨_, h1, _, _⟩
    · rw [h]; exact ⟨v, hv, he⟩
    · have := (hplain h1).2
      simp [IR.straight, hc] at this
  · intro b h hw z r hz hd; cases hd
  · intro q h b hw he r σ σ' e hl hr hphi
    obtain ⟨rfl, hv⟩ := hr
    have hphis : ∀ z ∈ phisOf f b, z ∈ f.body b ∧ (f.insn z).op = .phi := fun z hz => by
      obtain ⟨h1, h2⟩ := takeWhile_mem _ _ z hz
      exact ⟨h1, by simpa using h2⟩
    have hg : ∀ l : List Nat, (∀ z ∈ l, z ∈ f.body b ∧ (f.insn z).op = .phi) → phiAssign g q σ' l = phiAssign f q σ' l := by
      intro l
      induction l with
      | nil => intro _; rfl
      | cons z l ih =>
        intro hl
        simp only [phiAssign]
        rw [ih fun y hy => hl y (by simp [hy])]
        rcases hins b z (hl z (by simp)).1 with h | ⟨_, h1, _, _⟩
        · rw [h]
        · exact absurd (hl z (by simp)).2 (hplain h1).1
    have hfil : (phisOf f b).filter (fun x => !(fun _ => false) x) = phisOf f b := List.filter_eq_self.2 (fun _ _ => rfl)
    refine ⟨e, by rw [hfil, hg _ hphis]; exact hphi, rfl, fun hv' => ?_⟩
    obtain ⟨h1, h2⟩ := Valid.enter C hl hv'
    refine exec_same C.op (hv h1) ?_ fun y hy => ?_
    · exact (phiAssign_val hphi p).1 fun hm => (h2 p (hphis p hm).1).2 rfl
    · refine (phiAssign_val hphi y).1 fun hm => ?_
      have := (h2 y (hphis y hm).1).1
      omega

theorem Comp.start (C : Comp f p a) (σ : St) : CompRel W f p a [f.entry] (f.body f.entry) σ σ := by
  refine ⟨rfl, fun hv => ?_⟩
  simp only [Valid] at hv
  split at hv
  · rename_i e
    exact absurd (by rw [e]; exact C.mem) hv
  · rename_i e
    obtain ⟨l1, l2, e1, _⟩ := hv
    cases l1 with
    | nil => simp at e1; exact absurd e1.1 e
    | cons => simp at e1

/-- In front of a user of `p`, computing `p` again changes nothing. -/
theorem Comp.avail (C : Comp f p a) (σ : St) {n b z : Nat} {r : List Nat} {τ : St} (hr : runFn W f n σ = .running b (z :: r) τ)
    (hz : (f.insn z).op ≠ .phi) (hu : 0 < refs (f.insn z) p) : exec W p (f.insn p) τ = some τ := by
  obtain ⟨k, τ', hw, hrel, hb⟩ := (C.skips (W := W) (g := f) rfl rfl rfl (fun _ _ _ => .inl rfl)).reach n f.entry [] (f.body f.entry) σ σ .entry
    (C.start σ) (List.suffix_refl _) b (z :: r) τ hr
  exact hrel.2 (C.valid hw hb hz hu)

end Verif.IR
