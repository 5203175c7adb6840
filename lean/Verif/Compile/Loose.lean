import Verif.Compile.Sturdy
import Verif.Compile.Color
/-!
# Coalescing never looks at a copy between two values that have their places
-/
namespace Verif.Compile
open Verif Verif.IR Verif.Edit Verif.Cg
open Verif.Loc (hasResult phisOf_phi)
open Verif.Lower (Ready Neat)
open Verif.Norm (VrPos Reg Op)

/-- A value that has its place from the start and is not a variable. -/
def Pinned (s : Cg) (R : List Nat) (x : Nat) : Prop := InR s.f R x ∧ (s.pos x).allocated = true ∧ (s.f.insn x).op ≠ .alloc ∧ (s.f.insn x).op ≠ .allocarray

/-- Such values are copies of arguments of calls that nobody reads; machine registers are only read by other copies. -/
structure Loose (s : Cg) (R : List Nat) (rg : Nat → Nat) : Prop where
  copy : ∀ x, Pinned s R x → (s.f.insn x).op = .assign
  regs : ∀ u, InR s.f R u → ∀ i, i < 10 → .insn (rg i) ∈ operands (s.f.insn u) → (s.f.insn u).op = .assign ∧ (s.pos u).allocated = false
  lone : ∀ x, Pinned s R x → ∀ u, InR s.f R u → .insn x ∉ operands (s.f.insn u)

theorem notFixed_of {s : Cg} {R : List Nat} {rg : Nat → Nat} {d : BitVec 16} {off : Int} (h : Holds s R rg d off) (hl : Loose s R rg) : NotFixed (raOf R rg s) (copiesOf s.f R) := by
  rintro ⟨a, y⟩ hp ⟨h1, h2⟩
  have h1 : (s.pos a).allocated = true := h1
  have h2 : (s.pos y).allocated = true := h2
  unfold copiesOf at hp
  obtain ⟨x, hx, e⟩ := List.mem_filterMap.1 hp
  obtain ⟨b, hb, hx⟩ := List.mem_flatMap.1 hx
  have hxR : InR s.f R x := ⟨b, hb, hx⟩
  have ok := h.shape.insn x hxR
  -- an operand that has a place
  have opd : ∀ z, .insn z ∈ operands (s.f.insn x) → (s.pos z).allocated = true → (s.f.insn x).op = .assign ∨ (s.f.insn x).op = .store → (∀ r, (s.f.insn x).vals ≠ .insn z :: r ∨ (s.f.insn x).op = .assign) →
      ∃ i, i < 10 ∧ z = rg i := fun z hz ha ho hv => by
    rcases h.shape.dom x hxR z hz with e | e | ⟨hzR, -⟩
    · exfalso
      rcases ok.form with h1 | h1 | h1
      · rw [refs_eq] at h1
        rw [e] at hz
        have := List.count_pos_iff.2 hz
        omega
      · rcases h1 with h1 | h1 <;> rcases ho with ho | ho <;> rw [ho] at h1 <;> cases h1
      · rename_i h3 _ _
        rcases ho with ho | ho <;> rw [ho] at h3 <;> cases h3
    · exact e
    · exfalso
      by_cases hop : (s.f.insn z).op = .alloc
      · obtain ⟨k1, r, k2, -⟩ := ok.var z hz hop
        rcases hv r with hv | hv
        · exact hv k2
        · rw [hv] at k1
          rcases k1 with k1 | k1 <;> cases k1
      · by_cases hop2 : (s.f.insn z).op = .allocarray
        · have := (ok.arr z hz hop2).1
          rcases ho with ho | ho <;> rw [ho] at this <;> cases this
        · exact hl.lone z ⟨hzR, ha, hop, hop2⟩ x hxR hz
  split at e
  · rename_i ho hv
    cases e
    have hz : (.insn y : Val) ∈ operands (s.f.insn a) := by unfold operands; rw [hv]; simp
    obtain ⟨i, hi, ei⟩ := opd y hz h2 (.inl ho) (fun r => .inr ho)
    have := (hl.regs a hxR i hi (ei ▸ hz)).2
    rw [h1] at this
    cases this
  · rename_i ho hv
    cases e
    have hz : (.insn y : Val) ∈ operands (s.f.insn x) := by unfold operands; rw [hv]; simp
    obtain ⟨i, hi, ei⟩ := opd y hz h2 (.inr ho) (fun r => .inl (fun e => by
      rw [hv] at e
      injection e with e1 e2
      injection e1 with e1
      subst e1
      obtain ⟨a', r', k1, k2⟩ := h.ready.access x (hxR.inBody h.ready.sub) (.inr ho)
      rw [hv] at k1
      cases k1
      obtain ⟨-, r, k3, k4⟩ := ok.var a hz k2
      rw [hv] at k3
      cases k3
      simp at k4))
    have := (hl.regs x hxR i hi (ei ▸ hz)).1
    rw [ho] at this
    cases this
  · rename_i ho hv
    cases e
    have := hl.copy a ⟨hxR, h1, by rw [ho]; simp, by rw [ho]; simp⟩
    rw [ho] at this
    cases this
  · cases e

/-! ## Spilling -/

theorem spillOne_loose {s s' : Cg} {R : List Nat} {rg : Nat → Nat} {d : BitVec 16} {off off' : Int} {v : Nat} (h : Holds s R rg d off) (hv : VictimR s R v)
    (hl : Loose s R rg) (e : spillOne v s off = .ok (s', off')) : Loose s' R rg := by
  have hrg : ∀ i, i < 10 → rg i < s.f.next := fun i hi => h.ready.tidy.lt _ (.inr (.inl (h.regs i hi)))
  by_cases ho : (s.f.insn v).op = .alloc
  · unfold spillOne at e
    rw [if_neg (fun h => h.elim (hasResult_jmp hv.1.op.1).2 hv.1.op.2), if_pos ho] at e
    cases e
    have pin : ∀ {x}, Pinned ⟨s.f, upd s.pos v { s.pos v with allocated := true, spilled := newSpill off 8 }⟩ R x → Pinned s R x := by
      rintro x ⟨h1, h2, h3, h4⟩
      have hx : x ≠ v := fun e => h3 (by rw [e]; exact ho)
      dsimp only at h2
      rw [upd_ne _ _ hx] at h2
      exact ⟨h1, h2, h3, h4⟩
    refine ⟨fun x hx => hl.copy x (pin hx), fun u hu i hi hm => ?_, fun x hx => hl.lone x (pin hx)⟩
    obtain ⟨k1, k2⟩ := hl.regs u hu i hi hm
    refine ⟨k1, ?_⟩
    have hx : u ≠ v := fun e => by
      have k1 : (s.f.insn u).op = .assign := k1
      rw [e, ho] at k1
      cases k1
    dsimp only
    rw [upd_ne _ _ hx]
    exact k2
  · obtain ⟨s1, H, N, T, e1, hI⟩ := spill_inv (off := off) h.ready.base hv.1 ho
    rw [e] at e1
    cases e1
    have hvl : v < s.f.next := h.ready.tidy.lt v (.inr (.inr hv.1.inb))
    have cs : ∀ x, InR s'.f R x → (∃ b ∈ R, b ∈ s.f.allBbs ∧ x ∈ s.f.body b ∧ x < s.f.next) ∨ (s.f.next ≤ x ∧ x < s'.f.next ∧ (s'.f.insn x = mkAlloc .t64 ∨ s'.f.insn x = mkStore s.f.next (.insn v) ∨ s'.f.insn x = theLoad s.f.next)) := by
      rintro x ⟨b, hb, hx⟩
      have hbb := h.ready.sub b hb
      rcases hI.cases hbb hx with hx | hx
      · exact .inl ⟨b, hb, hbb, hx, h.ready.tidy.lt x (.inr (.inr ⟨b, hbb, hx⟩))⟩
      · have := hI.next2
        refine .inr ⟨?_, ?_, hI.insn_new hx⟩
        · rcases hx with e | e | ⟨e, -⟩ <;> omega
        · rcases hx with e | e | ⟨-, e⟩ <;> omega
    -- operands that are old come from old operands
    have opd : ∀ u, InR s'.f R u → ∀ z, z < s.f.next → .insn z ∈ operands (s'.f.insn u) → z = v ∨ ∃ b ∈ R, b ∈ s.f.allBbs ∧ u ∈ s.f.body b ∧ .insn z ∈ operands (s.f.insn u) := by
      intro u hu z hz hm
      rcases cs u hu with ⟨b, hbR, hbb, hub, hul⟩ | ⟨hn, -, e1 | e1 | e1⟩
      · refine .inr ⟨b, hbR, hbb, hub, ?_⟩
        rcases hI.insn_old h.ready.base hbb hub with ⟨t, e, -, ht'⟩ | ⟨hp, q, e, hq⟩
        · rw [e, operands_mapOps] at hm
          obtain ⟨w, hw, ew⟩ := List.mem_map.1 hm
          rcases ht' with ht' | ⟨n, hn, -, rfl⟩
          · rw [ht'] at ew; rw [← ew]; exact hw
          · unfold sub at ew
            split at ew
            · injection ew with ew
              omega
            · rw [← ew]; exact hw
        · rw [e] at hm
          have hop := phisOf_phi hp
          unfold operands at hm ⊢
          simp only [hop, if_true, List.mem_append] at hm ⊢
          rcases hm with (hm | hm) | hm
          · exact .inl (.inl hm)
          · obtain ⟨o, ho', eo⟩ := List.mem_map.1 hm
            obtain ⟨o1, ho1, h2⟩ := all2_right hq ho'
            rcases h2.2 with h3 | ⟨-, n, h3, h4, -⟩
            · exact .inl (.inr (List.mem_map.2 ⟨o1, ho1, h3.symm.trans eo⟩))
            · rw [h3] at eo
              injection eo with eo
              omega
          · exact .inr hm
      · rw [e1] at hm
        simp [operands, mkAlloc, raw] at hm
      · rw [e1] at hm
        have : z = s.f.next ∨ z = v := by simpa [operands, mkStore, raw] using hm
        rcases this with e | e
        · omega
        · exact .inl e
      · rw [e1] at hm
        have : z = s.f.next := by simpa [operands, theLoad, mkLoad, raw] using hm
        omega
    have pin : ∀ {x}, Pinned s' R x → Pinned s R x ∧ x < s.f.next := by
      rintro x ⟨h1, h2, h3, h4⟩
      rcases cs x h1 with ⟨b, hbR, hbb, hxb, hxl⟩ | ⟨hn, hlt, e1⟩
      · rw [hI.op hbb hxb] at h3 h4
        rw [hI.pos x hxl] at h2
        exact ⟨⟨⟨b, hbR, hxb⟩, h2, h3, h4⟩, hxl⟩
      · exfalso
        by_cases hx : x = s.f.next
        · rw [hx, hI.insnA] at h3
          exact h3 rfl
        · rw [hI.posN x (by omega) hlt] at h2
          cases h2
    refine ⟨fun x hx => ?_, fun u hu i hi hm => ?_, fun x hx u hu hm => ?_⟩
    · obtain ⟨⟨b, hb, hxb⟩, -⟩ := (pin hx).1
      rw [hI.op (h.ready.sub b hb) hxb]
      exact hl.copy x (pin hx).1
    · rcases opd u hu _ (hrg i hi) hm with e | ⟨b, hbR, hbb, hub, hm⟩
      · exfalso
        obtain ⟨b, hb, hvb⟩ := hv.1.inb
        exact (h.ready.tidy.fixed b hb v hvb).2 (e ▸ h.regs i hi)
      · rw [hI.op hbb hub, hI.pos u (h.ready.tidy.lt u (.inr (.inr ⟨b, hbb, hub⟩)))]
        exact hl.regs u ⟨b, hbR, hub⟩ i hi hm
    · rcases opd u hu x (pin hx).2 hm with e | ⟨b, hbR, hbb, hub, hm⟩
      · have := (pin hx).1.2.1
        rw [e, hv.1.free] at this
        cases this
      · exact hl.lone x (pin hx).1 u ⟨b, hbR, hub⟩ hm

theorem spill_loose {R : List Nat} {rg : Nat → Nat} {d : BitVec 16} : ∀ (vs : List Nat) (s s' : Cg) (off off' : Int), Holds s R rg d off → (∀ v ∈ vs, VictimR s R v) → vs.Nodup →
    Loose s R rg → spill vs s off = .ok (s', off') → Loose s' R rg
  | [], s, s', off, off', h, _, _, ht, e => by cases e; exact ht
  | v :: vs, s, s', off, off', h, hv, hn, ht, e => by
    obtain ⟨hvn, hn⟩ := List.nodup_cons.1 hn
    unfold spill at e
    obtain ⟨⟨s1, off1⟩, e1, e2⟩ := Out.bind_eq_ok.1 e
    obtain ⟨h1, h2⟩ := spill_holds h (hv v List.mem_cons_self) e1
    exact spill_loose vs s1 s' off1 off' h1 (fun w hw => h2 w (fun e => hvn (by rw [← e]; exact hw)) (hv w (List.mem_cons_of_mem _ hw))) hn
      (spillOne_loose h (hv v List.mem_cons_self) ht e1) e2

/-! ## Before the rounds -/

theorem const_loose {s s' : Cg} {R : List Nat} {rg : Nat → Nat} {d : BitVec 16} {off : Int} (h : Holds s R rg d off) (hR : R.Nodup) (e : spillConst R s = .ok s')
    (hl : Loose s R rg) : Loose s' R rg := by
  have hB := h.ready.base
  have hrg : ∀ i, i < 10 → rg i < s.f.next := fun i hi => h.ready.tidy.lt _ (.inr (.inl (h.regs i hi)))
  obtain ⟨s1, N, e1, hI⟩ := CInv.loop hB (R.flatMap s.f.body) s _ _ (CInv.start hB s.pos) (fun x hx => by
    obtain ⟨b, hb, hx⟩ := List.mem_flatMap.1 hx
    exact ⟨⟨b, hB.sub b hb, hx⟩, fun h => h⟩) (nodup_bodies hB.tidy hB.sub hR)
  have : spillConst R s = constsToRegs (R.flatMap s.f.body) s := rfl
  rw [this, e1] at e
  cases e
  have old : ∀ x, InR s.f R x → s'.f.insn x = s.f.insn x ∨ ∃ j n, s.f.next ≤ n ∧ s'.f.insn x = fitted (s.f.insn x) j n := fun x hx => by
    have hxl : x < s.f.next := hB.tidy.lt x (.inr (.inr (hx.inBody hB.sub)))
    by_cases hD : False ∨ x ∈ R.flatMap s.f.body
    · by_cases hu : ∃ j, Unfit (s.f.insn x) j
      · obtain ⟨j, hu⟩ := hu
        obtain ⟨n, -, h1, -, -, h2⟩ := hI.moved x hD j hu
        exact .inr ⟨j, n, h1, h2⟩
      · exact .inl (hI.same x hxl (.inr (fun j hj => hu ⟨j, hj⟩))).1
    · exact .inl (hI.same x hxl (.inl hD)).1
  have opEq : ∀ x, InR s.f R x → (s'.f.insn x).op = (s.f.insn x).op := fun x hx => by
    rcases old x hx with e | ⟨j, n, -, e⟩ <;> rw [e]
    rfl
  have cs : ∀ x, InR s'.f R x → InR s.f R x ∧ x < s.f.next ∨ s.f.next ≤ x ∧ x < s'.f.next ∧ ∃ v, s'.f.insn x = mkAssign v ∧ isConst (some v) = true := by
    rintro x ⟨b, hb, hx⟩
    rcases hI.mem (hB.sub b hb) hx with hx | hx
    · exact .inl ⟨⟨b, hb, hx⟩, hB.tidy.lt x (.inr (.inr ⟨b, hB.sub b hb, hx⟩))⟩
    · exact .inr ⟨hx.1, hx.2, hI.new _ hx.1 hx.2⟩
  have opd : ∀ u, InR s'.f R u → ∀ z, z < s.f.next → .insn z ∈ operands (s'.f.insn u) → InR s.f R u ∧ u < s.f.next ∧ .insn z ∈ operands (s.f.insn u) := by
    intro u hu z hz hm
    rcases cs u hu with ⟨hu, hul⟩ | ⟨-, -, v, e, hc⟩
    · refine ⟨hu, hul, ?_⟩
      rcases old u hu with e | ⟨j, n, hn, e⟩ <;> rw [e] at hm
      · exact hm
      · unfold operands fitted at hm
        unfold operands
        simp only [List.mem_append] at hm ⊢
        rcases hm with (hm | hm) | hm
        · rcases List.mem_or_eq_of_mem_set hm with hm | hm
          · exact .inl (.inl hm)
          · injection hm with hm
            omega
        · exact .inl (.inr hm)
        · exact .inr hm
    · exfalso
      rw [e] at hm
      have : v = .insn z := by simpa [operands, mkAssign, raw, eq_comm] using hm
      rw [this] at hc
      cases hc
  have pin : ∀ {x}, Pinned s' R x → Pinned s R x ∧ x < s.f.next := by
    rintro x ⟨h1, h2, h3, h4⟩
    rcases cs x h1 with ⟨hx, hxl⟩ | ⟨hn, hlt, -⟩
    · rw [opEq x hx] at h3 h4
      rw [hI.pos x hxl] at h2
      exact ⟨⟨hx, h2, h3, h4⟩, hxl⟩
    · rw [hI.posN x hn hlt] at h2
      cases h2
  refine ⟨fun x hx => ?_, fun u hu i hi hm => ?_, fun x hx u hu hm => ?_⟩
  · rw [opEq x (pin hx).1.1]
    exact hl.copy x (pin hx).1
  · obtain ⟨hu, hul, hm⟩ := opd u hu _ (hrg i hi) hm
    rw [opEq u hu, hI.pos u hul]
    exact hl.regs u hu i hi hm
  · obtain ⟨hu, hul, hm⟩ := opd u hu x (pin hx).2 hm
    exact hl.lone x (pin hx).1 u hu hm

theorem low_loose {f : Fn} {R : List Nat} {C : List Nat} {A : List (Nat × Nat)} {s : Cg} {rn : Nat → Nat} {H N M : Nat → List Nat} (hr : Ready f R)
    (h : Low (initCg f).f (rgOf f) (initCg f).pos C A s rn H N M) : Loose s R (rgOf f) := by
  have ht := hr.tidy
  have hnext : (initCg f).f.next = f.next + 10 := rfl
  have hlt : ∀ {x}, InBody f x → x < f.next ∧ (s.pos x).allocated = false := fun {x} hx => by
    have h1 := ht.lt x (.inr (.inr hx))
    refine ⟨h1, ?_⟩
    rw [h.core.posOld x (by omega)]
    obtain ⟨b, hb, hxb⟩ := hx
    show (if x = f.sp then _ else _ : VrPos).allocated = _
    rw [if_neg (ht.fixed b hb x hxb).1, if_neg (by omega)]
    rfl
  -- renamed values have no place
  have hren : ∀ z, rn z = z ∨ s.pos (rn z) = noPos := fun z => by
    by_cases hzC : z ∈ C
    · rcases h.rnC z hzC with ⟨-, e, -⟩ | e
      · exact .inl e
      · exact .inr (h.core.resM z (rn z) (by rw [e]; simp)).2
    · by_cases hzA : z ∈ A.map (·.1)
      · obtain ⟨o, ho, rfl⟩ := List.mem_map.1 hzA
        rcases h.rnA o ho with ⟨e, -⟩ | ⟨e, -⟩
        · exact .inl e
        · exact .inr (h.core.resH _ e).2
      · exact .inl (h.rest z hzC hzA)
  -- the operands of an old instruction
  have oldOp : ∀ y, InBody f y → ∀ z, .insn z ∈ operands (f.insn y) → z < f.next := fun y hy z hz => by
    refine ht.lt z (ht.closed y z (.inr (.inr hy)) ?_)
    rw [refs_eq]
    exact List.count_pos_iff.2 hz
  have opnd : ∀ y, InBody f y → ∀ w ∈ operands (f.insn y), ∀ z, renV rn w = .insn z → (z < f.next ∨ s.pos z = noPos) ∧ ∀ i, i < 10 → z ≠ rgOf f i := fun y hy w hw z ez => by
    cases w with
    | insn a =>
      have ha := oldOp y hy a hw
      have ez : rn a = z := by simpa [renV] using ez
      refine ⟨?_, fun i hi e => ?_⟩
      · rcases hren a with e | e
        · left; omega
        · right; rw [← ez]; exact e
      · unfold rgOf at e
        rcases h.core.new a with e1 | e1
        · omega
        · rw [hnext] at e1; omega
    | const k c t b => cases ez
    | undef => cases ez
  have hcs : ∀ u, InR s.f R u → (InR f R u ∧ (s.f.insn u = { f.insn u with vals := [] } ∨ s.f.insn u = mapOps (renV rn) (f.insn u))) ∨
      (f.next + 10 ≤ u ∧ ((∃ i, i < 10 ∧ s.f.insn u = mkAssign (.insn (rgOf f i)) ∧ s.pos u = noPos) ∨ ∃ y, InBody f y ∧ ∃ w ∈ operands (f.insn y), s.f.insn u = mkAssign (renV rn w))) := by
    rintro u ⟨b, hb, hx⟩
    have hbb := hr.blocks b hb
    have old : u ∈ f.body b → (s.f.insn u = { f.insn u with vals := [] } ∨ s.f.insn u = mapOps (renV rn) (f.insn u)) := by
      intro hy
      have hyl : Live f u := .inr (.inr ⟨b, hbb, hy⟩)
      have e := init_insn (ht.lt u hyl)
      by_cases hyC : u ∈ C
      · exact .inl (by rw [h.core.done u hyC, e])
      · exact .inr (by rw [h.core.old u (init_live.2 (.inl hyl)) hyC, e])
    have hnB := h.core.grown.newB b
    have hnI := h.core.grown.newI
    rw [h.core.grown.body b hbb] at hx
    simp only [List.append_nil, List.mem_append] at hx
    rcases hx with hx | hx | hx
    · rw [(init_code ht hbb).1] at hx
      exact .inl ⟨⟨b, hb, phis_body hx⟩, old (phis_body hx)⟩
    · right
      refine ⟨by rw [← hnext]; exact hnB u (by simp [hx]), .inl ?_⟩
      by_cases e : b = f.entry
      · subst e
        obtain ⟨⟨i, hi, e⟩, hp⟩ := h.core.resH u hx
        exact ⟨i + 1, by omega, e, hp⟩
      · rw [h.core.head b e] at hx; cases hx
    · rw [(init_code ht hbb).2] at hx
      obtain ⟨y, hy, hx⟩ := List.mem_flatMap.1 hx
      have hyb : InBody f y := ⟨b, hbb, code_body hy⟩
      rcases List.mem_append.1 hx with hx | hx
      · right
        refine ⟨by rw [← hnext]; exact hnI y u (List.mem_append_left _ hx), .inr ⟨y, hyb, ?_⟩⟩
        by_cases hyC : y ∈ C
        · obtain ⟨v, hv, e⟩ := (h.core.copies y hyC).asg u hx
          rw [init_insn (hlt hyb).1] at hv
          exact ⟨v, by unfold operands; simp [hv], e⟩
        · rw [(h.core.none y hyC).1] at hx; cases hx
      · rcases List.mem_cons.1 hx with rfl | hx
        · exact .inl ⟨⟨b, hb, code_body hy⟩, old (code_body hy)⟩
        · exact .inr ⟨by rw [← hnext]; exact hnI y u (List.mem_append_right _ hx), .inl ⟨0, by omega, h.core.resM y u hx⟩⟩
  have hops : ∀ u, InR s.f R u → ∀ z, .insn z ∈ operands (s.f.insn u) → (∃ i, i < 10 ∧ z = rgOf f i ∧ (s.f.insn u).op = .assign ∧ s.pos u = noPos) ∨ ((z < f.next ∨ s.pos z = noPos) ∧ ∀ i, i < 10 → z ≠ rgOf f i) := by
    intro u hu z hz
    rcases hcs u hu with ⟨hu, e | e⟩ | ⟨-, ⟨i, hi, e, hp⟩ | ⟨y, hy, w, hw, e⟩⟩
    · have hz' : .insn z ∈ operands (f.insn u) := by
        rw [e] at hz
        unfold operands at hz ⊢
        simp only [List.nil_append, List.mem_append] at hz ⊢
        rcases hz with hz | hz
        · exact .inl (.inr hz)
        · exact .inr hz
      have := oldOp u (hu.inBody hr.blocks) z hz'
      exact .inr ⟨.inl this, fun i hi e => by unfold rgOf at e; omega⟩
    · rw [e, operands_mapOps] at hz
      obtain ⟨w, hw, ew⟩ := List.mem_map.1 hz
      exact .inr (opnd u (hu.inBody hr.blocks) w hw z ew)
    · rw [e] at hz ⊢
      have : z = rgOf f i := by simpa [operands, mkAssign, raw] using hz
      exact .inl ⟨i, hi, this, rfl, hp⟩
    · rw [e] at hz
      have ew : renV rn w = .insn z := by simpa [operands, mkAssign, raw, eq_comm] using hz
      exact .inr (opnd y hy w hw z ew)
  have pin : ∀ {x}, Pinned s R x → f.next + 10 ≤ x ∧ (s.f.insn x).op = .assign := by
    rintro x ⟨h1, h2, -, -⟩
    rcases hcs x h1 with ⟨hu, -⟩ | ⟨h3, ⟨i, -, e, hp⟩ | ⟨y, -, w, -, e⟩⟩
    · rw [(hlt (hu.inBody hr.blocks)).2] at h2
      cases h2
    · exact ⟨h3, by rw [e]; rfl⟩
    · exact ⟨h3, by rw [e]; rfl⟩
  refine ⟨fun x hx => (pin hx).2, fun u hu i hi hm => ?_, fun x hx u hu hm => ?_⟩
  · rcases hops u hu _ hm with ⟨j, -, -, h1, h2⟩ | ⟨-, h1⟩
    · exact ⟨h1, by rw [h2]; rfl⟩
    · exact absurd rfl (h1 i hi)
  · have hx1 := (pin hx).1
    rcases hops u hu _ hm with ⟨j, hj, e, -, -⟩ | ⟨h1 | h1, -⟩
    · unfold rgOf at e; omega
    · omega
    · have := hx.2.1
      rw [h1] at this
      cases this

theorem prepare_loose {f : Fn} {R : List Nat} {d : BitVec 16} {s : Cg} {off : Int} (hr : Ready f R) (hn : Neat f R) (hF : Fits f R d)
    (ha : ∀ b ∈ R, ∀ x ∈ f.body b, (f.insn x).op = .allocarray → 0 < arrBytes (f.insn x) ∧ arrBytes (f.insn x) + 7 < 2 ^ 32) (e : prepare f R = .ok (s, off)) : Loose s R (rgOf f) := by
  obtain ⟨s0, rn, H, N, M, e0, h, C, A, hl, hC, -⟩ := lower_ok hr
  have h0 := lower_ready hr hn h hl hC
  obtain ⟨k1, k2, k3, k4, k5, k6⟩ := lower_shape hr hF h hl hC
  obtain ⟨s1, off1, e1, hsf, -, -, hpos, -⟩ := C54_arrays h0 hr.nodup (lower_arrays hr hl hC ha)
  have H1 := arrays_holds h0 k1 k2 k3 k4 k5 k6 hr.nodup (lower_arrays hr hl hC ha) e1
  obtain ⟨s2, e2, -⟩ := C53_const H1.ready hr.nodup
  unfold prepare at e
  rw [e0, Out.ok_bind, e1, Out.ok_bind] at e
  dsimp only at e
  rw [e2, Out.ok_bind] at e
  cases e
  refine const_loose H1 hr.nodup e2 ?_
  have hL := low_loose hr hl
  have pin : ∀ {x}, Pinned s1 R x → Pinned s0 R x := by
    rintro x ⟨h1, h2, h3, h4⟩
    rw [hsf] at h1 h3 h4
    rw [hpos x h4] at h2
    exact ⟨h1, h2, h3, h4⟩
  refine ⟨fun x hx => by rw [hsf]; exact hL.copy x (pin hx), fun u hu i hi hm => ?_, fun x hx u hu hm => ?_⟩
  · rw [hsf] at hu hm ⊢
    obtain ⟨h1, h2⟩ := hL.regs u hu i hi hm
    rw [hpos u (by rw [h1]; simp)]
    exact ⟨h1, h2⟩
  · rw [hsf] at hu hm
    exact hL.lone x (pin hx) u hu hm

/-- No copy is between two values with fixed registers. -/
theorem allocated_fixed {f : Fn} {R : List Nat} {d : BitVec 16} {s : Cg} {off : Int} {al : Allocated} (hr : Ready f R) (hn : Neat f R) (hF : Fits f R d)
    (ha : ∀ b ∈ R, ∀ x ∈ f.body b, (f.insn x).op = .allocarray → 0 < arrBytes (f.insn x) ∧ arrBytes (f.insn x) + 7 < 2 ^ 32) (e : prepare f R = .ok (s, off))
    (h : Rounds s off R (rgOf f) d al) : NotFixed (raOf R (rgOf f) al.s) (copiesOf al.s.f R) :=
  notFixed_of h.holds (h.keeps (fun s => Loose s R (rgOf f)) (fun _ _ _ _ vs h1 hv hvn hl e1 => spill_loose vs _ _ _ _ h1 hv hvn hl e1) (prepare_loose hr hn hF ha e))

end Verif.Compile
