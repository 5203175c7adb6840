import Verif.Compile.Assign
import Verif.RemPhi.Props
import Verif.Spec.Flatten
/-!
# The function that is flattened is `Placed`
-/
namespace Verif.Compile
open Verif Verif.IR Verif.Edit Verif.Cg
open Verif.Loc (phisOf_append phisOf_phi places virt placeOf hasResult writes PhiReady copiesAt)
open Verif.RemPhi (All2 sig Inv removePhi removeAll removeOne copyOps)
open Verif.Stack (shift shiftInsn shiftVal)
open Verif.Norm (VrPos Reg Op)

/-! ## Removing phis does not change operations -/

/-- Instructions that exist keep their operation. -/
def OpsKept (f g : Fn) : Prop := f.next ≤ g.next ∧ ∀ y, y < f.next → (g.insn y).op = (f.insn y).op

theorem OpsKept.trans {f g h : Fn} (a : OpsKept f g) (b : OpsKept g h) : OpsKept f h :=
  ⟨Nat.le_trans a.1 b.1, fun y hy => (b.2 y (Nat.lt_of_lt_of_le hy a.1)).trans (a.2 y hy)⟩

theorem copyOps_kept {x : Nat} {p : VrPos} : ∀ (os : List (Nat × Val)) (s : Cg), OpsKept s.f (copyOps x p os s).f
  | [], s => ⟨Nat.le_refl _, fun _ _ => rfl⟩
  | o :: r, s => by
    refine OpsKept.trans ?_ (copyOps_kept r _)
    have ha := added_createBb s.f (mkAssign o.2) o.1 .backBeforeJmp
    have hs := removeUser_same (createBb s.f (mkAssign o.2) o.1 .backBeforeJmp) o.2 x
    refine ⟨by rw [hs.next, ha.next]; omega, fun y hy => ?_⟩
    show ((removeUser _ _ _).insn y).op = _
    rw [hs.insn, ha.insn, upd_ne _ _ (Nat.ne_of_lt hy)]

theorem removeOne_kept {regs : Reg → Nat} {x : Nat} {s t : Cg} (hr : ∀ r, regs r ≠ x) (h : removeOne regs x s = .ok t) : OpsKept s.f t.f := by
  unfold removeOne at h
  obtain ⟨g, h1, h2⟩ := Out.bind_eq_ok.1 h
  cases h2
  refine (copyOps_kept (x := x) (p := s.pos x) (s.f.insn x).phi s).trans ?_
  generalize copyOps x (s.pos x) (s.f.insn x).phi s = q at h1
  obtain ⟨-, hs, -⟩ := erase_spec h1
  have hrep := replaceAll_spec (f := RemPhi.dropPhi q.f x) (x := x) (rep := .insn (regs (s.pos x).reg)) (by simpa using hr _)
  refine ⟨by rw [hs.next]; show _ ≤ (replaceAll _ _ _).next; rw [hrep.next]; exact Nat.le_refl _, fun y _ => ?_⟩
  rw [hs.insn]
  show ((replaceAll _ _ _).insn y).op = _
  have hd : ((RemPhi.dropPhi q.f x).insn y).op = (q.f.insn y).op := by
    unfold RemPhi.dropPhi
    dsimp only
    by_cases e : y = x
    · rw [e, upd_same]
    · rw [upd_ne _ _ e]
  rw [← hd]
  by_cases hu : y ∈ (RemPhi.dropPhi q.f x).users x
  · rw [hrep.insnIn y hu]; rfl
  · rw [hrep.insnOut y hu]

theorem removeAll_kept {regs : Reg → Nat} : ∀ (xs : List Nat) (s t : Cg), (∀ x ∈ xs, ∀ r, regs r ≠ x) → removeAll regs xs s = .ok t → OpsKept s.f t.f
  | [], s, t, _, h => by cases h; exact ⟨Nat.le_refl _, fun _ _ => rfl⟩
  | x :: xs, s, t, hr, h => by
    unfold removeAll at h
    obtain ⟨u, h1, h2⟩ := Out.bind_eq_ok.1 h
    exact (removeOne_kept (hr x List.mem_cons_self) h1).trans (removeAll_kept xs u t (fun y hy => hr y (List.mem_cons_of_mem _ hy)) h2)

/-! ## Moving the stack -/

/-- A change of operands that leaves instructions alone. -/
structure OnlyConsts (φ : Val → Val) : Prop where
  insn : ∀ y, φ (.insn y) = .insn y
  back : ∀ v y, φ v = .insn y → v = .insn y
  plain : ∀ c t b, φ (.const .plain c t b) = .const .plain c t b
  const : ∀ v k c t b, φ v = .const k c t b → ∃ k' c', v = .const k' c' t b
  same : ∀ k c t b, ∃ k' c', φ (.const k c t b) = .const k' c' t b

theorem onlyConsts_id : OnlyConsts id := ⟨fun _ => rfl, fun _ _ h => h, fun _ _ _ => rfl, fun _ _ _ _ _ h => ⟨_, _, h⟩, fun _ _ _ _ => ⟨_, _, rfl⟩⟩

theorem onlyConsts_shift (d : BitVec 16) : OnlyConsts (shiftVal d) := by
  refine ⟨fun _ => rfl, fun v y h => ?_, fun _ _ _ => rfl, fun v k c t b h => ?_, fun k c t b => by cases k <;> exact ⟨_, _, rfl⟩⟩
  · cases v with
    | const k c t b => cases k <;> cases h
    | insn z => exact h
    | undef => cases h
  · cases v with
    | const k' c' t' b' => cases k' <;> cases h <;> exact ⟨_, _, rfl⟩
    | insn z => cases h
    | undef => cases h

theorem shiftInsn_eq (d : BitVec 16) (i : Insn) : ∃ φ, OnlyConsts φ ∧ (shiftInsn d i).op = i.op ∧ (shiftInsn d i).vals = i.vals.map φ ∧
    (shiftInsn d i).addr = (if raw i.op then φ i.addr else i.addr) ∧ (shiftInsn d i).phi = if i.op = .phi then i.phi.map (fun o => (o.1, φ o.2)) else i.phi := by
  have h1 : ∃ φ, OnlyConsts φ ∧ (mapOps (shiftVal d) i).op = i.op ∧ (mapOps (shiftVal d) i).vals = i.vals.map φ ∧
      (mapOps (shiftVal d) i).addr = (if raw i.op then φ i.addr else i.addr) ∧ (mapOps (shiftVal d) i).phi = if i.op = .phi then i.phi.map (fun o => (o.1, φ o.2)) else i.phi :=
    ⟨shiftVal d, onlyConsts_shift d, rfl, rfl, rfl, rfl⟩
  unfold shiftInsn
  split
  · rename_i hop
    have hp : i.op ≠ .phi := by rcases hop with e | e <;> rw [e] <;> simp
    cases i.addrKind with
    | plain => exact h1
    | _ => exact ⟨id, onlyConsts_id, rfl, by simp, by simp, by rw [if_neg hp]⟩
  · exact h1

theorem shiftInsn_refs (d : BitVec 16) (i : Insn) (y : Nat) : .insn y ∈ operands (shiftInsn d i) ↔ .insn y ∈ operands i := by
  obtain ⟨φ, hφ, h1, h2, h3, h4⟩ := shiftInsn_eq d i
  have key : ∀ vs : List Val, .insn y ∈ vs.map φ ↔ .insn y ∈ vs := by
    intro vs
    rw [List.mem_map]
    constructor
    · rintro ⟨v, hv, e⟩
      rw [hφ.back v y e] at hv
      exact hv
    · exact fun h => ⟨_, h, hφ.insn y⟩
  unfold operands
  rw [h1, h2, h3, h4]
  simp only [List.mem_append]
  rw [key]
  refine or_congr (or_congr Iff.rfl ?_) ?_
  · split
    · have := key (i.phi.map (fun o => o.2))
      rw [List.map_map] at this ⊢
      exact this
    · exact Iff.rfl
  · split
    · rename_i hr
      exact key [i.addr]
    · exact Iff.rfl

/-! ## Positions after colouring -/

/-- Everything that has a result has a position: what had one keeps it, the others are in registers. -/
structure Seated (s : Cg) (R : List Nat) (pos : Nat → VrPos) : Prop where
  slots : ∀ x, (pos x).spilled = (s.pos x).spilled
  kept : ∀ x, (s.pos x).allocated = true → pos x = s.pos x
  new : ∀ x, (s.pos x).allocated = false → (pos x).allocated = true → (pos x).spilled = 0 ∧ (pos x).reg.val < 10
  all : ∀ x, InR s.f R x → hasResult (ops s.f x) = true → (pos x).allocated = true

variable {s : Cg} {R : List Nat} {rg : Nat → Nat} {d : BitVec 16} {off : Int} {pos : Nat → VrPos}

theorem Seated.not10 (h : Holds s R rg d off) (hs : Seated s R pos) {y : Nat} (hy : y ≠ s.f.sp) : (pos y).allocated = true → (pos y).spilled = 0 → (pos y).reg ≠ 10 := by
  intro ha hsp
  cases hal : (s.pos y).allocated with
  | true =>
    rw [hs.kept y hal] at hsp ⊢
    exact fun e => hy (h.pos.r10 y hal hsp e)
  | false =>
    have := (hs.new y hal ha).2
    intro e
    rw [e] at this
    exact absurd this (by decide)

theorem Seated.place10 (h : Holds s R rg d off) (hs : Seated s R pos) {y : Nat} (hy : y ≠ s.f.sp) : places pos y ≠ 10 := by
  cases ha : (pos y).allocated with
  | false => rw [Loc.places_free ha]; unfold virt; omega
  | true =>
    rw [Loc.places_alloc ha]
    by_cases hsp : (pos y).spilled = 0
    · rw [Loc.placeOf_reg hsp]
      intro e
      exact hs.not10 h hy ha hsp (Fin.ext e)
    · have := Loc.placeOf_slot hsp
      omega

theorem Seated.stack (h : Holds s R rg d off) (hs : Seated s R pos) {y : Nat} (hy : (pos y).spilled ≠ 0) :
    (pos y).allocated = true ∧ pos y = s.pos y ∧ (ops s.f y = .alloc ∨ ops s.f y = .allocarray) := by
  have hy' : (s.pos y).spilled ≠ 0 := by rw [← hs.slots]; exact hy
  have hal : (s.pos y).allocated = true := by
    cases e : (s.pos y).allocated with
    | true => rfl
    | false => exact absurd (h.pos.free y e) hy'
  have e := hs.kept y hal
  exact ⟨by rw [e]; exact hal, e, (h.pos.stack y hy').2⟩

theorem Seated.oneSp (h : Holds s R rg d off) (hs : Seated s R pos) {x : Nat} (hx : InR s.f R x) : Stack.OneSp s.f (places pos) x := by
  have hxsp : x ≠ s.f.sp := by
    obtain ⟨b, hb, hx⟩ := hx
    exact (h.ready.tidy.fixed b (h.ready.sub b hb) x hx).1
  refine ⟨fun y _ hy => hs.place10 h hy, fun _ y _ hy => hs.place10 h hy, fun _ o _ y _ hy => hs.place10 h hy, fun hw => ?_, fun _ => hs.place10 h hxsp⟩
  rcases Loc.writes_cases hw with ⟨-, h1⟩ | ⟨h1, a, h2, h3⟩ | ⟨-, h2⟩
  · omega
  · obtain ⟨a', r, h4, h5⟩ := h.ready.access x (hx.inBody h.ready.sub) (.inr h1)
    rw [h4] at h2
    cases h2
    refine hs.place10 h (y := a) (fun e => ?_) h3.symm
    rw [e, h.fixed.1] at h5
    cases h5
  · exact hs.place10 h hxsp h2.symm

theorem Seated.sp (h : Holds s R rg d off) (hs : Seated s R pos) : pos s.f.sp = ⟨true, 10, 0⟩ := by
  rw [hs.kept _ (by rw [h.pos.sp]), h.pos.sp]

theorem Seated.rgAt (h : Holds s R rg d off) (hs : Seated s R pos) {i : Nat} (hi : i < 10) : pos (rg i) = ⟨true, Fin.ofNat 11 i, 0⟩ := by
  rw [hs.kept _ (by rw [h.pos.rg i hi]), h.pos.rg i hi]

/-! ## Before the phis are removed -/

theorem live_shift {f : Fn} {d : BitVec 16} {x : Nat} : Live (shift d f) x ↔ Live f x := Iff.rfl

theorem shift_refs {f : Fn} {d : BitVec 16} {x y : Nat} : 0 < refs ((shift d f).insn x) y ↔ 0 < refs (f.insn x) y := by
  rw [refs_pos, refs_pos]
  exact shiftInsn_refs d (f.insn x) y

theorem flow_shift {f : Fn} {R : List Nat} (d : BitVec 16) (h : Loc.Flow f R) : Loc.Flow (shift d f) R := by
  have ho := Stack.shift_op d f
  refine ⟨h.entry, h.succs, fun b hb x hx e => ?_, fun b hb x hx e => ?_, fun b hb pre z r e hc hp => ?_⟩
  · rw [(ho x).1] at e
    rw [(ho x).2.1]
    exact h.ja b hb x hx e
  · rw [(ho x).1] at e
    rw [(ho x).2.1, (ho x).2.2]
    exact h.cond b hb x hx e
  · rw [(ho z).1] at hc hp
    exact h.last b hb pre z r e hc hp

/-- The instructions for the machine registers. -/
def RegsAre (s : Cg) (rg : Nat → Nat) (regs : Reg → Nat) : Prop := ∀ r, regs r = if r.val = 10 then s.f.sp else rg r.val

theorem RegsAre.cases {regs : Reg → Nat} (hr : RegsAre s rg regs) (r : Reg) : regs r = s.f.sp ∧ r = 10 ∨ ∃ i, i < 10 ∧ regs r = rg i ∧ r = Fin.ofNat 11 i := by
  have := hr r
  split at this
  · rename_i e
    exact .inl ⟨this, Fin.ext e⟩
  · refine .inr ⟨r.val, by have := r.isLt; omega, this, Fin.ext ?_⟩
    simp only [Fin.val_ofNat]
    exact (Nat.mod_eq_of_lt r.isLt).symm

theorem RegsAre.posAt (h : Holds s R rg d off) (hs : Seated s R pos) {regs : Reg → Nat} (hr : RegsAre s rg regs) (r : Reg) : pos (regs r) = ⟨true, r, 0⟩ := by
  rcases hr.cases r with ⟨e, e2⟩ | ⟨i, hi, e, e2⟩
  · rw [e, hs.sp h, e2]
  · rw [e, hs.rgAt h hi, e2]

theorem RegsAre.live (h : Holds s R rg d off) {regs : Reg → Nat} (hr : RegsAre s rg regs) (r : Reg) : regs r = s.f.sp ∨ regs r ∈ s.f.args := by
  rcases hr.cases r with ⟨e, -⟩ | ⟨i, hi, e, -⟩
  · exact .inl e
  · exact .inr (by rw [e]; exact h.regs i hi)

theorem RegsAre.op (h : Holds s R rg d off) {regs : Reg → Nat} (hr : RegsAre s rg regs) (r : Reg) : (s.f.insn (regs r)).op = .reg := by
  rcases hr.cases r with ⟨e, -⟩ | ⟨i, hi, e, -⟩
  · rw [e]; exact h.fixed.1
  · rw [e]; exact h.fixed.2 i hi

theorem Holds.phiReady {d0 : BitVec 16} (h : Holds s R rg d0 off) (hR : R.Nodup) (hs : Seated s R pos) {regs : Reg → Nat} (hr : RegsAre s rg regs) : PhiReady (shift d s.f) R pos regs := by
  have hph := Stack.phisOf_shift d s.f
  have hop := fun x => (Stack.shift_op d s.f x).1
  refine ⟨⟨h.ready.tidy.lt, fun x y hx hy => h.ready.tidy.closed x y hx (shift_refs.1 hy), h.ready.tidy.parent, h.ready.tidy.nodup, h.ready.tidy.fixed⟩,
    fun u y hu hy hr => (h.ready.users y hy).1 u hu (shift_refs.1 hr), ⟨hR, h.ready.sub⟩, fun b hb x hx => ?_, ?_, fun b hb x hx o ho => ?_, fun b hb x hx e a ha => ?_, fun r => ?_⟩
  · rw [(hph b).2] at hx
    rw [hop]
    exact h.ready.front b (h.ready.sub b hb) x hx
  · show phisOf (shift d s.f) s.f.entry = []
    rw [(hph _).1]; exact h.ready.entry
  · rw [(hph b).1] at hx
    have hxb : x ∈ s.f.body b := by rw [← phisOf_append s.f b]; exact List.mem_append_left _ hx
    obtain ⟨φ, -, -, -, -, h4⟩ := shiftInsn_eq d (s.f.insn x)
    have ho : o ∈ (shiftInsn d (s.f.insn x)).phi := ho
    rw [h4, if_pos (phisOf_phi hx)] at ho
    obtain ⟨o', ho', rfl⟩ := List.mem_map.1 ho
    exact h.ready.labels x ⟨b, h.ready.sub b hb, hxb⟩ o' ho'
  · rw [hop] at e ⊢
    obtain ⟨a', r, h1, h2⟩ := h.ready.access x ⟨b, h.ready.sub b hb, hx⟩ (.inl e)
    obtain ⟨φ, hφ, -, h3, -, -⟩ := shiftInsn_eq d (s.f.insn x)
    have ha : (shiftInsn d (s.f.insn x)).vals = [.insn a] := ha
    rw [h3, h1, List.map_cons, hφ.insn] at ha
    cases (List.cons.inj ha).1
    rw [h2]
    simp
  · refine ⟨hr.live h r, ?_⟩
    have := hr.posAt h hs r
    simp [places, this, placeOf]

/-! ## After the phis have been removed -/

/-- What removing the phis has made. -/
structure Gone (s : Cg) (R : List Nat) (d : BitVec 16) (pos : Nat → VrPos) (regs : Reg → Nat) (t : Cg) : Prop where
  inv : Inv (shift d s.f) pos regs R (R.flatMap (phisOf (shift d s.f))) (RemPhi.copiesFor (shift d s.f) (R.flatMap (phisOf (shift d s.f)))) (fun _ => False) t
  kept : OpsKept s.f t.f

theorem Holds.gone {d0 : BitVec 16} (h : Holds s R rg d0 off) (hR : R.Nodup) (hs : Seated s R pos) {regs : Reg → Nat} (hr : RegsAre s rg regs) {t : Cg}
    (e : removePhi regs (dst (shift d s.f)) R ⟨shift d s.f, pos⟩ = .ok t) : Gone s R d pos regs t := by
  have hp := h.phiReady (d := d) hR hs hr
  have hn := RemPhi.phis_nodup hp.tidy hp.blocks.1 hp.blocks.2
  obtain ⟨t', e1, hi⟩ := RemPhi.inv_all hp (flow_shift d h.ready.flow) (R.flatMap (phisOf (shift d s.f))) (done := []) (s := ⟨shift d s.f, pos⟩) (RemPhi.inv_start hp)
    (fun x hx => List.mem_flatMap.1 hx) (by simpa using hn)
  rw [List.nil_append] at hi
  unfold removePhi at e
  dsimp only at e
  split at e
  · rw [e] at e1
    cases e1
    refine ⟨hi, ?_⟩
    have hk := removeAll_kept _ _ _ (fun x hx r hrx => ?_) e
    · refine ⟨hk.1, fun y hy => ?_⟩
      rw [hk.2 y hy]
      exact (Stack.shift_op d s.f y).1
    · obtain ⟨b, hb, hxb⟩ := List.mem_flatMap.1 hx
      have hxb' : x ∈ s.f.body b := by
        have := phisOf_append (shift d s.f) b
        have h2 : x ∈ (shift d s.f).body b := by rw [← this]; exact List.mem_append_left _ hxb
        exact h2
      have hfix := h.ready.tidy.fixed b (h.ready.sub b hb) x hxb'
      rcases hr.live h r with e | e
      · exact hfix.1 (by rw [← hrx]; exact e)
      · exact hfix.2 (by rw [← hrx]; exact e)
  · cases e

/-- What an operand has become. -/
def ren (s : Cg) (R : List Nat) (pos : Nat → VrPos) (regs : Reg → Nat) (z : Nat) : Nat := if z ∈ R.flatMap (phisOf s.f) then regs (pos z).reg else z

theorem sig_eq {regs : Reg → Nat} {φ : Val → Val} (hφ : OnlyConsts φ) : 
    (∀ z, sig regs pos (R.flatMap (phisOf s.f)) (φ (.insn z)) = .insn (ren s R pos regs z)) ∧
    (∀ v y, sig regs pos (R.flatMap (phisOf s.f)) (φ v) = .insn y → ∃ z, v = .insn z ∧ y = ren s R pos regs z) := by
  have h1 : ∀ z, sig regs pos (R.flatMap (phisOf s.f)) (φ (.insn z)) = .insn (ren s R pos regs z) := by
    intro z
    rw [hφ.insn]
    unfold sig ren
    dsimp only
    split <;> rfl
  refine ⟨h1, fun v y e => ?_⟩
  generalize ev : φ v = w at e
  cases w with
  | const k c t b => cases e
  | undef => cases e
  | insn z =>
    have := hφ.back v z ev
    subst this
    rw [← ev, h1] at e
    exact ⟨z, rfl, by cases e; rfl⟩

/-- An instruction of the function without phis: an old one with its operands replaced, or a copy. -/
inductive Made (s : Cg) (R : List Nat) (pos : Nat → VrPos) (regs : Reg → Nat) (t : Cg) (x : Nat) : Prop
  | old (ψ : Val → Val) : InR s.f R x → (s.f.insn x).op ≠ .phi → t.pos x = pos x →
      (∀ z, ψ (.insn z) = .insn (ren s R pos regs z)) → (∀ v y, ψ v = .insn y → ∃ z, v = .insn z ∧ y = ren s R pos regs z) →
      (∀ v k c t b, ψ v = .const k c t b → ∃ k' c', v = .const k' c' t b) → (∀ c t b, ψ (.const .plain c t b) = .const .plain c t b) →
      (t.f.insn x).op = (s.f.insn x).op → (t.f.insn x).vals = (s.f.insn x).vals.map ψ → (t.f.insn x).addr = (if raw (s.f.insn x).op then ψ (s.f.insn x).addr else (s.f.insn x).addr) →
      Made s R pos regs t x
  | copy (p : Nat) (v w : Val) : InR s.f R p → (s.f.insn p).op = .phi → t.pos x = pos p → t.f.insn x = mkAssign w → v ∈ operands (s.f.insn p) →
      (∀ y, w = .insn y → ∃ z, v = .insn z ∧ y = ren s R pos regs z) →
      ((∃ y, v = .insn y) ∨ (∃ k c, v = .const k c .w32 .none) → (∃ y, w = .insn y) ∨ ∃ k c, w = .const k c .w32 .none) → Made s R pos regs t x

theorem Holds.made {d0 : BitVec 16} (h : Holds s R rg d0 off) {regs : Reg → Nat} {t : Cg} (hg : Gone s R d pos regs t) {b x : Nat} (hb : b ∈ R)
    (hx : x ∈ t.f.body b) : Made s R pos regs t x := by
  have hph := Stack.phisOf_shift d s.f
  have hT : R.flatMap (phisOf (shift d s.f)) = R.flatMap (phisOf s.f) := by
    congr 1
    funext b
    exact (hph b).1
  obtain ⟨N, e1, -, e3⟩ := hg.inv.body b hb
  have hop := fun x => (Stack.shift_op d s.f x).1
  have hcase : (x ∈ s.f.body b ∧ x ∉ R.flatMap (phisOf s.f)) ∨ x ∈ N := by
    rw [e1] at hx
    simp only [List.mem_append] at hx
    rcases hx with h1 | h1 | h1
    · obtain ⟨h2, h3⟩ := List.mem_filter.1 h1
      rw [hT] at h3
      exact .inl ⟨(List.takeWhile_prefix _).subset h2, by simpa using h3⟩
    · exact .inr h1
    · have h2 : x ∈ s.f.body b := (List.dropWhile_suffix _).subset h1
      refine .inl ⟨h2, fun hm => ?_⟩
      rcases RemPhi.tail_cases (flow_shift d h.ready.flow) hb with h3 | ⟨z, h3, h4⟩
      · rw [h3] at h1; cases h1
      · rw [h3] at h1
        cases List.mem_singleton.1 h1
        rw [← hT] at hm
        exact (RemPhi.isJmp_control h4).2 (hg.inv.phis _ hm)
  rcases hcase with ⟨h1, h2⟩ | h1
  · have hxI : InBody s.f x := ⟨b, h.ready.sub b hb, h1⟩
    have hxl := h.ready.tidy.lt x (.inr (.inr hxI))
    have hi := hg.inv.insn x hxI (by rw [hT]; exact h2)
    obtain ⟨φ, hφ, k1, k2, k3, -⟩ := shiftInsn_eq d (s.f.insn x)
    have hs := sig_eq (s := s) (R := R) (pos := pos) (regs := regs) hφ
    have hp : (s.f.insn x).op ≠ .phi := fun e => h2 (List.mem_flatMap.2 ⟨b, hb, front_phi (h.ready.front b (h.ready.sub b hb)) h1 e⟩)
    refine .old (fun v => sig regs pos (R.flatMap (phisOf s.f)) (φ v)) ⟨b, hb, h1⟩ hp (hg.inv.pos x hxl) hs.1 hs.2 (fun v k c u bb e => ?_) (fun c u bb => ?_) ?_ ?_ ?_
    · generalize ev : φ v = w at e
      cases w with
      | const k1 c1 t1 b1 =>
        cases e
        exact hφ.const v _ _ _ _ ev
      | insn z => rw [← ev, hφ.back v z ev, hs.1] at e; cases e
      | undef => cases e
    · show sig _ _ _ (φ _) = _
      rw [hφ.plain]; rfl
    · rw [hi]; exact hop x
    · rw [hi, hT]
      show List.map _ (shiftInsn d (s.f.insn x)).vals = _
      rw [k2, List.map_map]
      rfl
    · rw [hi, hT]
      show (if raw (shiftInsn d (s.f.insn x)).op then sig _ _ _ (shiftInsn d (s.f.insn x)).addr else (shiftInsn d (s.f.insn x)).addr) = _
      rw [k1, k3]
      split <;> rfl
  · obtain ⟨o, ho, k1, k2⟩ := e3.left x h1
    obtain ⟨p, hp, ho⟩ := List.mem_flatMap.1 ho
    rw [hT] at hp k1
    obtain ⟨c, hc, hpc⟩ := List.mem_flatMap.1 hp
    obtain ⟨q, hq, rfl⟩ := List.mem_map.1 ho
    have hpb : p ∈ s.f.body c := by rw [← phisOf_append s.f c]; exact List.mem_append_left _ hpc
    have hpp := phisOf_phi hpc
    have hq := (List.mem_filter.1 hq).1
    obtain ⟨φ, hφ, -, -, -, k4⟩ := shiftInsn_eq d (s.f.insn p)
    have hq : q ∈ (shiftInsn d (s.f.insn p)).phi := hq
    rw [k4, if_pos hpp] at hq
    obtain ⟨q', hq', rfl⟩ := List.mem_map.1 hq
    refine .copy p q'.2 _ ⟨c, hc, hpb⟩ hpp k2 k1 ?_ (fun y hy => (sig_eq hφ).2 q'.2 y hy) ?_
    rotate_left
    · rintro (⟨y, e⟩ | ⟨k, c, e⟩)
      · dsimp only
        rw [e]
        exact .inl ⟨_, (sig_eq hφ).1 y⟩
      · refine .inr ?_
        dsimp only
        rw [e]
        obtain ⟨k', c', ec⟩ := hφ.same k c .w32 .none
        exact ⟨k', c', by rw [ec]; rfl⟩
    unfold operands
    rw [if_pos hpp]
    exact List.mem_append_left _ (List.mem_append_right _ (List.mem_map.2 ⟨_, hq', rfl⟩))

/-- What is known of an operand of the function without phis. -/
structure Arg (s : Cg) (R : List Nat) (pos : Nat → VrPos) (regs : Reg → Nat) (t : Cg) (z : Nat) : Prop where
  dst : dst t.f (ren s R pos regs z) = some (ren s R pos regs z)
  alloc : (t.pos (ren s R pos regs z)).allocated = true
  same : (t.f.insn (ren s R pos regs z)).op = .allocarray ∨ (t.f.insn (ren s R pos regs z)).op = .alloc ∨ (t.pos (ren s R pos regs z)).spilled ≠ 0 → ren s R pos regs z = z
  old : ren s R pos regs z = z → (t.f.insn z).op = (s.f.insn z).op ∧ t.pos z = pos z
  arr : (s.f.insn z).op = .allocarray → InR s.f R z
  lt : z < s.f.next
  spN : (s.f.insn z).op = .alloc → z ≠ s.f.sp

theorem Holds.arg {d0 : BitVec 16} (h : Holds s R rg d0 off) (hs : Seated s R pos) {regs : Reg → Nat} (hr : RegsAre s rg regs) {t : Cg}
    (hg : Gone s R d pos regs t) {x z : Nat} (hx : InR s.f R x) (hz : .insn z ∈ operands (s.f.insn x)) : Arg s R pos regs t z := by
  have hl : Live s.f z := h.ready.tidy.closed x z (.inr (.inr (hx.inBody h.ready.sub))) (refs_pos.2 hz)
  have hzl := h.ready.tidy.lt z hl
  have hrl : ∀ r, Live s.f (regs r) := fun r => (hr.live h r).elim .inl fun e => .inr (.inl e)
  have hd := h.shape.dom x hx z hz
  have hres : hasResult (s.f.insn z).op = true ∧ (pos z).allocated = true := by
    rcases hd with e | ⟨i, hi, e⟩ | ⟨h1, h2⟩
    · rw [e, h.fixed.1, hs.sp h]; exact ⟨rfl, rfl⟩
    · rw [e, h.fixed.2 i hi, hs.rgAt h hi]; exact ⟨rfl, rfl⟩
    · exact ⟨h2, hs.all z h1 h2⟩
  have hold : (t.f.insn z).op = (s.f.insn z).op ∧ t.pos z = pos z := ⟨hg.kept.2 z hzl, hg.inv.pos z hzl⟩
  have hR : ∀ r, (t.f.insn (regs r)).op = .reg ∧ t.pos (regs r) = ⟨true, r, 0⟩ := fun r => by
    have hlt := h.ready.tidy.lt _ (hrl r)
    refine ⟨(hg.kept.2 _ hlt).trans (hr.op h r), ?_⟩
    rw [hg.inv.pos _ hlt, hr.posAt h hs r]
  refine ⟨?_, ?_, ?_, fun _ => hold, fun e => ?_, hzl, fun e e2 => ?_⟩
  · rw [dst_of_result]
    unfold ren
    split
    · rw [(hR _).1]; rfl
    · rw [hold.1, hres.1]; rfl
  · unfold ren
    split
    · rw [(hR _).2]
    · rw [hold.2]; exact hres.2
  · unfold ren
    split
    · rw [(hR _).1, (hR _).2]
      rintro (e | e | e)
      · cases e
      · cases e
      · exact absurd rfl e
    · exact fun _ => rfl
  · rcases hd with e' | ⟨i, hi, e'⟩ | ⟨h1, -⟩
    · rw [e', h.fixed.1] at e; cases e
    · rw [e', h.fixed.2 i hi] at e; cases e
    · exact h1
  · rw [e2, h.fixed.1] at e; cases e

theorem operand_val {i : Insn} {v : Val} (h : v ∈ i.vals) : v ∈ operands i := by unfold operands; simp [h]

theorem operand_addr {i : Insn} (h : raw i.op = true) : i.addr ∈ operands i := by unfold operands; simp [h]

theorem Made.operands {t : Cg} {regs : Reg → Nat} (h : Holds s R rg d off) {x y : Nat} (hm : Made s R pos regs t x)
    (hy : .insn y ∈ (t.f.insn x).vals ∨ (t.f.insn x).addr = .insn y) : ∃ x0 z, InR s.f R x0 ∧ .insn z ∈ operands (s.f.insn x0) ∧ y = ren s R pos regs z := by
  cases hm with
  | old ψ h1 h2 h3 h4 h5 h6 h6' h7 h8 h9 =>
    rcases hy with hy | hy
    · rw [h8] at hy
      obtain ⟨v, hv, e⟩ := List.mem_map.1 hy
      obtain ⟨z, rfl, hz⟩ := h5 v y e
      exact ⟨x, z, h1, operand_val hv, hz⟩
    · rw [h9] at hy
      split at hy
      · rename_i hr
        obtain ⟨z, e, hz⟩ := h5 _ y hy
        exact ⟨x, z, h1, by rw [← e]; exact operand_addr hr, hz⟩
      · rename_i hr
        exact absurd hy ((h.shape.insn x h1).noAddr (by simpa using hr) y)
  | copy p v w h1 h2 h3 h4 h5 h6 =>
    rw [h4] at hy
    rcases hy with hy | hy
    · obtain ⟨z, rfl, hz⟩ := h6 y (List.mem_singleton.1 hy).symm
      exact ⟨p, z, h1, h5, hz⟩
    · cases hy

theorem Holds.placed {d0 : BitVec 16} (h : Holds s R rg d0 off) (hs : Seated s R pos) {regs : Reg → Nat} (hr : RegsAre s rg regs) {t : Cg}
    (hg : Gone s R d pos regs t) (hoff : -2 ^ 31 ≤ off) : Flatten.Placed t.f R (Compile.dst t.f) t.pos := by
  have made : ∀ {b x}, b ∈ R → x ∈ t.f.body b → Made s R pos regs t x := fun hb hx => h.made hg hb hx
  have arg : ∀ {x y}, Made s R pos regs t x → .insn y ∈ (t.f.insn x).vals ∨ (t.f.insn x).addr = .insn y →
      ∃ x0 z, InR s.f R x0 ∧ .insn z ∈ operands (s.f.insn x0) ∧ y = ren s R pos regs z ∧ Arg s R pos regs t z := by
    intro x y hm hy
    obtain ⟨x0, z, h1, h2, h3⟩ := hm.operands h hy
    exact ⟨x0, z, h1, h2, h3, h.arg hs hr hg h1 h2⟩
  have spR : ∀ {x}, InR s.f R x → x ≠ s.f.sp := fun ⟨b, hb, hx⟩ => (h.ready.tidy.fixed b (h.ready.sub b hb) _ hx).1
  -- what is on the stack
  have onStack : ∀ y, Flatten.Names t.f R y → (t.pos y).spilled ≠ 0 → t.pos y = s.pos y ∧ (t.pos y).allocated = true := by
    intro y ⟨b, hb, x, hx, hy⟩ hsp
    have hm := made hb hx
    rcases hy with rfl | hy
    · cases hm with
      | old ψ h1 h2 h3 h4 h5 h6 h6' h7 h8 h9 =>
        rw [h3] at hsp ⊢
        obtain ⟨k1, k2, -⟩ := hs.stack h hsp
        exact ⟨k2, k1⟩
      | copy p v w h1 h2 h3 h4 h5 h6 =>
        rw [h3] at hsp
        have := (hs.stack h hsp).2.2
        unfold ops at this
        rw [h2] at this
        rcases this with e | e <;> cases e
    · obtain ⟨x0, z, h1, h2, rfl, ha⟩ := arg hm hy
      have e := ha.same (.inr (.inr hsp))
      rw [e] at hsp ⊢
      rw [(ha.old e).2] at hsp ⊢
      obtain ⟨k1, k2, -⟩ := hs.stack h hsp
      exact ⟨k2, k1⟩
  have arrays : ∀ y, Flatten.Names t.f R y → (t.f.insn y).op = .allocarray → Flatten.OnStack (t.pos y) := by
    intro y ⟨b, hb, x, hx, hy⟩ hop
    have hm := made hb hx
    have key : InR s.f R y → (s.f.insn y).op = .allocarray → t.pos y = pos y → Flatten.OnStack (t.pos y) := by
      intro k1 k2 k3
      obtain ⟨k4, k5⟩ := h.arrays y k1 k2
      rw [k3, hs.kept y k4]
      exact ⟨k4, k5⟩
    rcases hy with rfl | hy
    · cases hm with
      | old ψ h1 h2 h3 h4 h5 h6 h6' h7 h8 h9 => exact key h1 (by rw [← h7]; exact hop) h3
      | copy p v w h1 h2 h3 h4 h5 h6 => rw [h4] at hop; cases hop
    · obtain ⟨x0, z, h1, h2, rfl, ha⟩ := arg hm hy
      have e := ha.same (.inl hop)
      rw [e] at hop ⊢
      rw [(ha.old e).1] at hop
      rw [e] at key
      exact key (ha.arr hop) hop (ha.old e).2
  have base : ∀ {x0 z}, InR s.f R x0 → .insn z ∈ operands (s.f.insn x0) → Arg s R pos regs t z → (s.f.insn x0).op ≠ .load → (s.f.insn x0).op ≠ .store →
      Flatten.OnStack (t.pos (ren s R pos regs z)) → (t.f.insn (ren s R pos regs z)).op = .allocarray := by
    intro x0 z h1 h2 ha hl hst hon
    have e := ha.same (.inr (.inr hon.2))
    rw [e] at hon ⊢
    have hon := hon.2
    rw [(ha.old e).2] at hon
    rw [(ha.old e).1]
    rcases (hs.stack h hon).2.2 with k | k
    · rcases ((h.shape.insn x0 h1).var z h2 k).1 with k2 | k2
      · exact absurd k2 hl
      · exact absurd k2 hst
    · exact k
  refine ⟨fun b hb x hx => ?_, fun b hb x hx y hy => ?_, fun b hb x hx hres hal => ?_, fun b hb x hx hop => ?_, arrays, fun b hb x hx y hy hop => ?_, fun b hb x hx hop v w hv => ?_,
    fun b hb x hx hop => ⟨fun y hy hon => ?_, fun k c u bb hk => ?_⟩, fun y z hy hz => ?_, fun y z hy hz hop => ?_, fun y hy => ?_⟩
  · cases made hb hx with
    | old ψ h1 h2 h3 h4 h5 h6 h6' h7 h8 h9 => rw [h7]; exact ⟨h2, (h.shape.insn x h1).noThrow⟩
    | copy p v w h1 h2 h3 h4 h5 h6 => rw [h4]; exact ⟨by simp [mkAssign], by simp [mkAssign]⟩
  · obtain ⟨x0, z, h1, h2, rfl, ha⟩ := arg (made hb hx) hy
    exact ⟨ha.dst, ha.alloc⟩
  · refine ⟨by rw [dst_of_result, if_pos hres], ?_⟩
    cases made hb hx with
    | old ψ h1 h2 h3 h4 h5 h6 h6' h7 h8 h9 =>
      rw [h7] at hres
      rw [h3]
      have := hs.all x h1 hres
      exact ⟨this, hs.not10 h (spR h1) this⟩
    | copy p v w h1 h2 h3 h4 h5 h6 =>
      rw [h3]
      have := hs.all p h1 (by unfold ops; rw [h2]; rfl)
      exact ⟨this, hs.not10 h (spR h1) this⟩
  · cases made hb hx with
    | old ψ h1 h2 h3 h4 h5 h6 h6' h7 h8 h9 =>
      rw [h7] at hop
      obtain ⟨a, r, k1, k2⟩ := h.ready.access x (h1.inBody h.ready.sub) hop
      have hao : .insn a ∈ operands (s.f.insn x) := operand_val (by rw [k1]; exact List.mem_cons_self)
      have ha := h.arg hs hr hg h1 hao
      have e : ren s R pos regs a = a := by
        unfold ren
        rw [if_neg]
        intro hm
        obtain ⟨c, -, hc⟩ := List.mem_flatMap.1 hm
        rw [phisOf_phi hc] at k2
        cases k2
      refine ⟨a, r.map ψ, by rw [h8, k1, List.map_cons, h4, e], by rw [(ha.old e).1, k2], ?_⟩
      rw [(ha.old e).2]
      exact hs.not10 h (ha.spN k2) (by rw [← (ha.old e).2]; have := ha.alloc; rw [e] at this; exact this)
    | copy p v w h1 h2 h3 h4 h5 h6 => rw [h4] at hop; rcases hop with e | e <;> cases e
  · cases made hb hx with
    | old ψ h1 h2 h3 h4 h5 h6 h6' h7 h8 h9 =>
      rw [h8] at hy
      obtain ⟨v, hv, e⟩ := List.mem_map.1 hy
      obtain ⟨z, rfl, rfl⟩ := h5 v y e
      have ha := h.arg hs hr hg h1 (operand_val hv)
      have e := ha.same (.inl hop)
      rw [e] at hop ⊢
      rw [(ha.old e).1] at hop
      obtain ⟨k1, v, k2, k3⟩ := (h.shape.insn x h1).arr z (operand_val hv) hop
      rw [h7]
      refine ⟨k1, ψ v, by rw [h8, k2, List.map_cons, List.map_cons, h4, e]; rfl, fun e2 => ?_⟩
      obtain ⟨w, rfl, hw⟩ := h5 v z e2
      have hb := h.arg hs hr hg h1 (z := w) (operand_val (by rw [k2]; exact List.mem_cons_self))
      have := hb.same (.inl (by rw [← hw, (ha.old e).1]; exact hop))
      exact k3 (by rw [hw, this])
    | copy p v w h1 h2 h3 h4 h5 h6 =>
      exfalso
      rw [h4] at hy
      obtain ⟨z, rfl, rfl⟩ := h6 y (List.mem_singleton.1 hy).symm
      have ha := h.arg hs hr hg h1 h5
      have e := ha.same (.inl hop)
      rw [e, (ha.old e).1] at hop
      have := ((h.shape.insn p h1).arr z h5 hop).1
      rw [h2] at this
      cases this
  · cases made hb hx with
    | old ψ h1 h2 h3 h4 h5 h6 h6' h7 h8 h9 =>
      rw [h7] at hop
      rw [h8] at hv
      generalize hl : (s.f.insn x).vals = l at hv
      match l, hv with
      | [v0, w0], hv =>
        have e2 : ψ w0 = w := by simpa using (List.cons.inj hv).2
        obtain ⟨z, rfl⟩ := (h.shape.insn x h1).gep hop v0 w0 hl
        have hz : .insn z ∈ operands (s.f.insn x) := operand_val (by rw [hl]; simp)
        refine ⟨ren s R pos regs z, by rw [← e2, h4], ?_⟩
        exact base h1 hz (h.arg hs hr hg h1 hz) (by rw [hop]; simp) (by rw [hop]; simp)
    | copy p v w h1 h2 h3 h4 h5 h6 => rw [h4] at hop; cases hop
  · cases made hb hx with
    | old ψ h1 h2 h3 h4 h5 h6 h6' h7 h8 h9 =>
      rw [h7] at hop
      have hraw : raw (s.f.insn x).op = true := by rcases hop with e | e <;> rw [e] <;> rfl
      rw [h9, if_pos hraw] at hy
      obtain ⟨z, e, rfl⟩ := h5 _ y hy
      have hz : .insn z ∈ operands (s.f.insn x) := by rw [← e]; exact operand_addr hraw
      exact base h1 hz (h.arg hs hr hg h1 hz) (by rcases hop with e | e <;> rw [e] <;> simp) (by rcases hop with e | e <;> rw [e] <;> simp) hon
    | copy p v w h1 h2 h3 h4 h5 h6 => rw [h4] at hop; rcases hop with e | e <;> cases e
  · cases made hb hx with
    | old ψ h1 h2 h3 h4 h5 h6 h6' h7 h8 h9 =>
      rw [h7] at hop
      have hraw : raw (s.f.insn x).op = true := by rcases hop with e | e <;> rw [e] <;> rfl
      rw [h9, if_pos hraw] at hk
      obtain ⟨k', c', e⟩ := h6 _ k c u bb hk
      have := (h.shape.insn x h1).addr hraw k' c' u bb e
      subst this
      rw [e, h6'] at hk
      cases hk
      rfl
    | copy p v w h1 h2 h3 h4 h5 h6 => rw [h4] at hop; rcases hop with e | e <;> cases e
  · have e1 := (onStack y hy.1 hy.2.2.2).1
    have e2 := (onStack z hz.1 hz.2.2.2).1
    by_cases e : y = z
    · exact .inl (by rw [e])
    · refine .inr ?_
      have h1 := hy.2.2.2
      have h2 := hz.2.2.2
      rw [e1] at h1 ⊢
      rw [e2] at h2 ⊢
      exact h.pos.apart y z e h1 h2
  · have hz2 := arrays z hz hop
    have e1 := (onStack y hy.1 hy.2.2.2).1
    have e2 := (onStack z hz hz2.2).1
    have hne : y ≠ z := fun e => hy.2.1 (by rw [e]; exact hop)
    have h1 := hy.2.2.2
    have h2 := hz2.2
    rw [e1] at h1 ⊢
    rw [e2] at h2 ⊢
    have := h.pos.apart y z hne h1 h2
    omega
  · by_cases e : (t.pos y).spilled = 0
    · rw [e]; exact ⟨by decide, by decide⟩
    · have e1 := (onStack y hy e).1
      rw [e1] at e ⊢
      have := h.pos.neg y e
      omega

end Verif.Compile
