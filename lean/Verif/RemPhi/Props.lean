import Verif.RemPhi.Lemmas
import Verif.Cg.Examples
/-!
# C39
-/
namespace Verif.RemPhi
open Verif Verif.IR Verif.Edit Verif.Cg Verif.Loc
open Verif.Norm (VrPos Reg)
set_option linter.unusedSimpArgs false

theorem phis_nodup {f : Fn} {R : List Nat} (ht : Tidy f) (hR : R.Nodup) (hb : ∀ b ∈ R, b ∈ f.allBbs) : (R.flatMap (phisOf f)).Nodup := by
  unfold List.Nodup
  rw [List.pairwise_flatMap]
  have hmem : ∀ b x, x ∈ phisOf f b → x ∈ f.body b := fun b x hx => by
    rw [← phisOf_append f b]; exact List.mem_append_left _ hx
  refine ⟨fun b hbR => ?_, ?_⟩
  · have := ht.nodup b (hb b hbR)
    rw [← phisOf_append f b, List.nodup_append] at this
    exact this.1
  · refine List.Pairwise.imp_of_mem ?_ hR
    intro a b ha hbR hab x hx y hy e
    subst e
    exact hab (by rw [← ht.parent a (hb a ha) x (hmem a x hx), ← ht.parent b (hb b hbR) x (hmem b x hy)])

theorem filter_code {f : Fn} {R : List Nat} (ht : Tidy f) (hb : ∀ b ∈ R, b ∈ f.allBbs) {b : Nat} (hbR : b ∈ R) :
    (f.body b).filter (fun y => decide (y ∉ R.flatMap (phisOf f))) = codeOf f b := by
  have hmem : ∀ b x, x ∈ phisOf f b → x ∈ f.body b := fun b x hx => by
    rw [← phisOf_append f b]; exact List.mem_append_left _ hx
  have hn := ht.nodup b (hb b hbR)
  rw [← phisOf_append f b, List.nodup_append] at hn
  rw [← phisOf_append f b, List.filter_append]
  have e1 : (phisOf f b).filter (fun y => decide (y ∉ R.flatMap (phisOf f))) = [] := by
    rw [List.filter_eq_nil_iff]
    intro y hy
    have : y ∈ R.flatMap (phisOf f) := List.mem_flatMap.2 ⟨b, hbR, hy⟩
    simpa using this
  have e2 : (codeOf f b).filter (fun y => decide (y ∉ R.flatMap (phisOf f))) = codeOf f b := by
    refine List.filter_eq_self.2 (fun y hy => ?_)
    have hyb : y ∈ f.body b := by rw [← phisOf_append f b]; exact List.mem_append_right _ hy
    have : y ∉ R.flatMap (phisOf f) := by
      intro hm
      obtain ⟨c, hc, hyc⟩ := List.mem_flatMap.1 hm
      have : b = c := by rw [← ht.parent b (hb b hbR) y hyb, ← ht.parent c (hb c hc) y (hmem c y hyc)]
      subst this
      exact hn.2.2 y hyc y hy rfl
    simpa using this
  rw [e1, e2, List.nil_append]

/-- What `remove_phi` returns. -/
theorem removed_of_inv {f : Fn} {pos : Nat → VrPos} {regs : Reg → Nat} {R : List Nat} (h : PhiReady f R pos regs) (hf : Flow f R)
    (hsp : ∀ b ∈ R, ∀ x ∈ phisOf f b, (pos x).allocated = true ∧ (pos x).spilled = 0) {t : Cg}
    (hi : Inv f pos regs R (R.flatMap (phisOf f)) (copiesFor f (R.flatMap (phisOf f))) (fun _ => False) t) :
    Removed (fun y => Live f y) f t.f R (places pos) (places t.pos) (sig regs pos (R.flatMap (phisOf f))) := by
  have hcode : ∀ b ∈ R, ∀ x ∈ codeOf f b, InBody f x ∧ x ∉ R.flatMap (phisOf f) := by
    intro b hb x hx
    have hb0 := h.blocks.2 b hb
    rw [← filter_code h.tidy h.blocks.2 hb, List.mem_filter] at hx
    exact ⟨⟨b, hb0, hx.1⟩, by simpa using hx.2⟩
  have hpos : ∀ y, Live f y → t.pos y = pos y := fun y hy => hi.pos y (h.tidy.lt y hy)
  have hbody : ∀ b ∈ R, ∃ pre N, codeOf f b = pre ++ tailOf f b ∧ t.f.body b = pre ++ (N ++ tailOf f b) ∧
      (∀ x ∈ pre, Loc.control (f.insn x).op = false) ∧ (tailOf f b = [] ∨ ∃ z, tailOf f b = [z] ∧ Loc.control (f.insn z).op = true ∧ (f.insn z).op ≠ .phi) ∧
      All2 (fun n o => t.f.insn n = mkAssign (sig regs pos (R.flatMap (phisOf f)) o.2) ∧ t.pos n = pos o.1) N (copiesAt f R b) := by
    intro b hb
    obtain ⟨N, e1, _, e3⟩ := hi.body b hb
    have htl := tail_cases hf hb
    have htail : (tailOf f b).filter (fun y => decide (y ∉ R.flatMap (phisOf f))) = tailOf f b := by
      refine List.filter_eq_self.2 (fun z hz => ?_)
      have : z ∉ R.flatMap (phisOf f) := by
        intro hm
        rcases htl with h1 | ⟨w, h1, h2⟩
        · rw [h1] at hz; cases hz
        · rw [h1] at hz
          simp only [List.mem_singleton] at hz
          subst hz
          exact (isJmp_control h2).2 (hi.phis z hm)
      simpa using this
    have e : codeOf f b = (preOf f b).filter (fun y => decide (y ∉ R.flatMap (phisOf f))) ++ tailOf f b := by
      rw [← filter_code h.tidy h.blocks.2 hb, pre_tail f b, List.filter_append, htail]
    refine ⟨_, N, e, e1, ?_, ?_, e3⟩
    · intro x hx
      have hxc : x ∈ codeOf f b := by rw [e]; exact List.mem_append_left _ hx
      have hj := pre_jmp (List.mem_filter.1 hx).1
      cases hc : Loc.control (f.insn x).op with
      | false => rfl
      | true =>
        have := control_isJmp hc (h.front b hb x hxc)
        rw [hj] at this
        cases this
    · rcases htl with h1 | ⟨z, h1, h2⟩
      · exact Or.inl h1
      · exact Or.inr ⟨z, h1, isJmp_control h2⟩
  refine ⟨⟨fun _ _ _ _ => rfl, rfl, ?_⟩, ?_, hi.entry, hi.succs, ?_, ?_, ?_, ?_⟩
  · intro y hy
    by_cases hm : y ∈ R.flatMap (phisOf f)
    · refine ⟨regs (pos y).reg, by simp only [sig, if_pos hm], ?_⟩
      obtain ⟨b, hb, hyb⟩ := List.mem_flatMap.1 hm
      show places t.pos (regs (pos y).reg) = places pos y
      have e1 : places t.pos (regs (pos y).reg) = places pos (regs (pos y).reg) := by
        unfold places; rw [hpos _ ((h.regs _).1.elim .inl fun e => .inr (.inl e))]
      rw [e1, (h.regs _).2]
      simp [places, placeOf, hsp b hb y hyb]
    · refine ⟨y, by simp only [sig, if_neg hm], ?_⟩
      show places t.pos y = places pos y
      unfold places
      rw [hpos y hy]
  · intro b hb x hx v hv y e
    subst e
    exact h.tidy.closed x y (.inr (.inr ⟨b, h.blocks.2 b hb, hx⟩)) (refs_pos.2 hv)
  · intro b hb x hx
    obtain ⟨h1, h2⟩ := hcode b hb x hx
    refine ⟨hi.insn x h1 h2, ?_⟩
    show places t.pos x = places pos x
    unfold places
    rw [hpos x (.inr (.inr h1))]
  · intro b hb x hx hl a ha
    have hxb : x ∈ f.body b := by rw [← phisOf_append f b]; exact List.mem_append_right _ hx
    have := h.loads b hb x hxb hl a ha
    have hm : a ∉ R.flatMap (phisOf f) := fun hm => this (hi.phis a hm)
    simp only [sig, if_neg hm]
  · intro b hb
    obtain ⟨pre, N, e1, e2, e3, e4, e5⟩ := hbody b hb
    refine ⟨pre, N, _, e1, e2, e3, e4, e5.imp (fun n _ o hmo ho => ?_)⟩
    refine ⟨by rw [ho.1]; rfl, by rw [ho.1]; simp [mkAssign], by rw [ho.1]; rfl, ?_⟩
    show places t.pos n = places pos o.1
    have hal : (pos o.1).allocated = true := by
      obtain ⟨x, hx, hox⟩ := List.mem_flatMap.1 hmo
      obtain ⟨c, hc, hxc⟩ := List.mem_flatMap.1 hx
      obtain ⟨_, _, rfl⟩ := List.mem_map.1 hox
      exact (hsp c hc x hxc).1
    simp [places, ho.2, hal]
  · intro b hb x hx
    obtain ⟨pre, N, e1, e2, e3, e4, e5⟩ := hbody b hb
    rw [e2] at hx
    have hcase : x ∈ codeOf f b ∨ x ∈ N := by
      rw [e1]
      simp only [List.mem_append] at hx ⊢
      rcases hx with h1 | h1 | h1
      · exact Or.inl (Or.inl h1)
      · exact Or.inr h1
      · exact Or.inl (Or.inr h1)
    rcases hcase with hc | hn
    · obtain ⟨h1, h2⟩ := hcode b hb x hc
      rw [hi.insn x h1 h2, mapOps_op]
      exact h.front b hb x hc
    · obtain ⟨o, _, ho⟩ := e5.left x hn
      rw [ho.1]
      simp [mkAssign]

/-- **C39** (partial): if the copies at the end of each block can be made one after the other (`CopiesFit`), the function without
phis does what the function with phis did, on every execution: as many steps as you like of the one are followed by the
other, with the same result, memory and calls.  No phi is left.  Missing: the register assignment does not ensure
`CopiesFit`, see the violations below. -/
theorem C39_copies_partial {f : Fn} {pos : Nat → VrPos} {regs : Reg → Nat} {R : List Nat} {dst : Nat → Option Nat}
    (h : PhiReady f R pos regs) (hf : Flow f R) (hc : CopiesFit f R (places pos))
    (hd : ∀ b ∈ R, ∀ x ∈ phisOf f b, dst x = some x ∧ (pos x).allocated = true ∧ (pos x).spilled = 0) :
    ∃ t, removePhi regs dst R ⟨f, pos⟩ = .ok t ∧ (∀ b ∈ R, ∀ x ∈ t.f.body b, (t.f.insn x).op ≠ .phi) ∧
      (∀ y, Live f y → t.pos y = pos y) ∧ Tidy t.f ∧ ∀ W τ, Keeps W f (places pos) t.f (places t.pos) τ := by
  have hn := phis_nodup h.tidy h.blocks.1 h.blocks.2
  obtain ⟨t, e, hi⟩ := inv_all h hf (R.flatMap (phisOf f)) (done := []) (s := ⟨f, pos⟩) (inv_start h)
    (fun x hx => List.mem_flatMap.1 hx) (by simpa using hn)
  rw [List.nil_append] at hi
  have hr := removed_of_inv h hf (fun b hb x hx => (hd b hb x hx).2) hi
  refine ⟨t, ?_, hr.nophi, fun y hy => hi.pos y (h.tidy.lt y hy), hi.tidy, fun W τ => keeps_removed hf hn hc hr h.entry τ⟩
  unfold removePhi
  dsimp only
  rw [if_pos]
  · exact e
  · rw [List.all_eq_true]
    intro x hx
    obtain ⟨b, hb, hxb⟩ := List.mem_flatMap.1 hx
    obtain ⟨h1, _, h2⟩ := hd b hb x hxb
    simp [phiOk, h1, h2]

/-! ## Violations: with the registers from the modelled allocator -/

section
open Verif.Cg (mkFn dstOf allocate c64 retL retI st0)

/-- The outcome of the SSA function, of the function with registers, and of the function without phis. -/
def outcome (f : Fn) (n : Nat) : Option (Option (BitVec 64) × Option (BitVec 64) × Option (BitVec 64)) :=
  match allocate f with
  | .ok pos =>
    match removePhi Cg.regs (dstOf f) f.allBbs ⟨f, pos⟩ with
    | .ok t => some (retI f n, retL f pos n, retL t.f t.pos n)
    | _ => none
  | _ => none

/-- A loop whose phi 12 is used after the loop. -/
def lost : Fn := mkFn [([(11, mkJa 1)], [1]),
  ([(12, { op := .phi, phi := [(0, c64 0), (1, .insn 13)] }), (13, mkBin .add .w64 (.insn 12) (c64 1)),
    (14, mkJbin .jlt .w64 (.insn 13) (c64 3) 2 1)], [2, 1]),
  ([(15, mkRet (.insn 12))], [])]

/-- A loop that swaps 13 and 14. -/
def swapped : Fn := mkFn [([(11, mkJa 1)], [1]),
  ([(12, { op := .phi, phi := [(0, c64 0), (1, .insn 15)] }), (13, { op := .phi, phi := [(0, c64 5), (1, .insn 14)] }),
    (14, { op := .phi, phi := [(0, c64 7), (1, .insn 13)] }), (15, mkBin .add .w64 (.insn 12) (c64 1)),
    (16, mkJbin .jlt .w64 (.insn 15) (c64 2) 2 1)], [2, 1]),
  ([(17, mkBin .mul .w64 (.insn 13) (c64 16)), (18, mkBin .add .w64 (.insn 17) (.insn 14)), (19, mkRet (.insn 18))], [])]

/-- The blocks 1 and 2 have the two successors 3 and 4, both with a phi. -/
def shared : Fn := mkFn [([(11, mkJbin .jeq .w64 (.insn 1) (c64 0) 1 2)], [1, 2]),
  ([(12, mkJbin .jeq .w64 (.insn 2) (c64 0) 3 4)], [3, 4]),
  ([(13, mkJbin .jeq .w64 (.insn 2) (c64 0) 3 4)], [3, 4]),
  ([(14, { op := .phi, phi := [(1, c64 1), (2, c64 2)] }), (15, mkRet (.insn 14))], []),
  ([(16, { op := .phi, phi := [(1, c64 3), (2, c64 4)] }), (17, mkRet (.insn 16))], [])]

/-- **C39**: a phi on the stack, or whose result goes elsewhere, is rejected. -/
theorem C39_spilled_rejected {regs : Reg → Nat} {dst : Nat → Option Nat} {R : List Nat} {s : Cg} {b x : Nat} (hb : b ∈ R) (hx : x ∈ phisOf s.f b)
    (h : (s.pos x).spilled ≠ 0 ∨ dst x ≠ some x) : removePhi regs dst R s = .crit := by
  unfold removePhi
  dsimp only
  rw [if_neg]
  intro ha
  have := List.all_eq_true.1 ha x (List.mem_flatMap.2 ⟨b, hb, hx⟩)
  simp only [phiOk, Bool.and_eq_true, decide_eq_true_eq] at this
  exact h.elim (fun h => h this.2) (fun h => h this.1)

/-- **C39** is violated (lost copy): a phi of a loop is used after the loop; the copy for the next iteration is made before the
jump that leaves the loop. -/
theorem C39_violated_lost : outcome lost 40 = some (some 2#64, some 2#64, some 3#64) := by decide +kernel

/-- **C39** is violated (swap): the copies are made one after the other, not at the same time. -/
theorem C39_violated_swap : outcome swapped 40 = some (some 0x75#64, some 0x75#64, some 0x77#64) := by decide +kernel

/-- **C39** is violated (two successors): phis of different successors share a register, the copies for both are made. -/
theorem C39_violated_shared : outcome shared 40 = some (some 1#64, some 1#64, some 3#64) := by decide +kernel

/-- The three functions are in good shape. -/
theorem witnesses_ok : Ok lost ∧ Ok swapped ∧ Ok shared :=
  ⟨ok_of_check (by decide +kernel) (fun _ h => Cg.mkFn_body h), ok_of_check (by decide +kernel) (fun _ h => Cg.mkFn_body h),
    ok_of_check (by decide +kernel) (fun _ h => Cg.mkFn_body h)⟩

/-! ## Example -/

/-- A test for `CopiesFit`. -/
def fitB (f : Fn) (R : List Nat) (l : Nat → Nat) : Bool :=
  R.all (fun p => (f.body p).all (fun z => decide (Loc.control (f.insn z).op = true → (f.insn z).op ≠ .phi →
    ∀ o ∈ copiesAt f R p, l o.1 ∉ reads l (f.insn z)))) &&
  R.all (fun p => (f.succs p).all (fun c => (copiesAt f R p).all (fun o => decide (o.1 ∈ phisOf f c)))) &&
  R.all (fun p => decide ((copiesAt f R p).Pairwise (fun o o' => l o.1 ∉ place l o'.2))) &&
  R.all (fun p => (copiesAt f R p).all (fun o => decide (o.2 ≠ .undef))) &&
  R.all (fun c => (phisOf f c).all (fun x => decide (((f.insn x).phi.map (·.1)).Nodup)))

theorem fit_of_check {f : Fn} {R : List Nat} {l : Nat → Nat} (h : fitB f R l = true) : CopiesFit f R l := by
  simp only [fitB, Bool.and_eq_true, List.all_eq_true, decide_eq_true_eq] at h
  obtain ⟨⟨⟨⟨h1, h2⟩, h3⟩, h4⟩, h5⟩ := h
  refine ⟨h1, ?_, h4, h5⟩
  intro p hp c hc A x v B e _ _
  have hm : (x, v) ∈ copiesAt f R p := by rw [e]; simp
  refine ⟨h2 p hp c hc _ hm, ?_⟩
  intro o ho
  have h6 := h3 p hp
  rw [e] at h6
  exact (List.pairwise_append.1 h6).2.2 o ho _ (List.mem_cons_self ..)

/-- Two ways that compute different values, which a phi joins. -/
def good : Fn := mkFn [([(11, mkJbin .jeq .w64 (.insn 1) (c64 0) 1 2)], [1, 2]),
  ([(12, mkBin .add .w64 (.insn 1) (c64 4)), (13, mkJa 3)], [3]), ([(14, mkBin .mul .w64 (.insn 1) (c64 2)), (15, mkJa 3)], [3]),
  ([(16, { op := .phi, phi := [(1, .insn 12), (2, .insn 14)] }), (17, mkRet (.insn 16))], [])]

def goodPos (x : Nat) : VrPos := if x ≤ 10 then ⟨true, Fin.ofNat 11 x, 0⟩ else if x = 16 then ⟨true, 3, 0⟩ else ⟨true, 2, 0⟩

/-- The example meets the hypotheses of `C39_copies_partial`. -/
theorem good_ready : PhiReady good [0, 1, 2, 3] goodPos Cg.regs ∧ Flow good [0, 1, 2, 3] ∧
    CopiesFit good [0, 1, 2, 3] (places goodPos) ∧
    ∀ b ∈ [0, 1, 2, 3], ∀ x ∈ phisOf good b, dstOf good x = some x ∧ (goodPos x).allocated = true ∧ (goodPos x).spilled = 0 := by
  have hok : Ok good := ok_of_check (by decide +kernel) (fun _ h => Cg.mkFn_body h)
  refine ⟨⟨hok.tidy, fun u y hu hy hr => ((hok.users.listed y hy).1 u hu).2 hr, by decide +kernel, by decide +kernel, by decide +kernel, by decide +kernel, ?_, ?_⟩,
    Cg.flow_of_check (by decide +kernel), fit_of_check (by decide +kernel), by decide +kernel⟩
  · have : ∀ b ∈ [0, 1, 2, 3], ∀ x ∈ good.body b, (good.insn x).op ≠ .load := by decide +kernel
    exact fun b hb x hx h => absurd h (this b hb x hx)
  · decide +kernel

/-- It returns `2 * r1` or `r1 + 4`, before and after. -/
example : (match removePhi Cg.regs (dstOf good) [0, 1, 2, 3] ⟨good, goodPos⟩ with
    | .ok t => some (retI good 40, retL good goodPos 40, retL t.f t.pos 40) | _ => none) =
  some (some 5#64, some 5#64, some 5#64) := by decide +kernel

end

end Verif.RemPhi
