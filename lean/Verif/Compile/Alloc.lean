import Verif.Compile.LowerStep
import Verif.Loc.Props
/-!
# The rounds of register allocation
-/
namespace Verif.Compile
open Verif.Lower (Ready Neat)
open Verif Verif.IR Verif.Edit Verif.Cg
open Verif.Loc (phisOf_append phisOf_phi places hasResult)
open Verif.Norm (VrPos Reg Op)

/-- Jumps to other blocks. -/
def Jump (o : Op) : Prop := o = .ja ∨ o.condJmp = true

theorem Jump.not_phi {o : Op} (h : Jump o) : o ≠ .phi := by
  intro e
  rw [e] at h
  rcases h with h | h <;> cases h

/-- Jumps and returns. -/
def Turn (o : Op) : Prop := Jump o ∨ o = .ret

/-- The instruction `x` is of the same kind and has the same targets. -/
def Like (f g : Fn) (x : Nat) : Prop := (g.insn x).op = (f.insn x).op ∧ (g.insn x).bb1 = (f.insn x).bb1 ∧ (g.insn x).bb2 = (f.insn x).bb2

/-- The blocks `R` have the same jumps and returns, and what is no phi stays in its block. -/
def SameJumps (R : List Nat) (f g : Fn) : Prop := ∀ b ∈ R, (∀ x ∈ f.body b, (f.insn x).op ≠ .phi → x ∈ g.body b ∧ Like f g x) ∧
  (∀ x ∈ g.body b, Turn (g.insn x).op → x ∈ f.body b ∧ Like f g x)

theorem SameJumps.rfl' (R : List Nat) (f : Fn) : SameJumps R f f := fun _ _ => ⟨fun _ hx _ => ⟨hx, rfl, rfl, rfl⟩, fun _ hx _ => ⟨hx, rfl, rfl, rfl⟩⟩

theorem Like.trans {f g h : Fn} {x : Nat} (a : Like f g x) (b : Like g h x) : Like f h x := ⟨b.1.trans a.1, b.2.1.trans a.2.1, b.2.2.trans a.2.2⟩

theorem SameJumps.trans {R : List Nat} {f g h : Fn} (a : SameJumps R f g) (b : SameJumps R g h) : SameJumps R f h := fun c hc =>
  ⟨fun x hx hj => by
    obtain ⟨h1, h2⟩ := (a c hc).1 x hx hj
    obtain ⟨h3, h4⟩ := (b c hc).1 x h1 (by rw [h2.1]; exact hj)
    exact ⟨h3, h2.trans h4⟩, fun x hx hj => by
    obtain ⟨h1, h2⟩ := (b c hc).2 x hx hj
    obtain ⟨h3, h4⟩ := (a c hc).2 x h1 (by rw [← h2.1]; exact hj)
    exact ⟨h3, h4.trans h2⟩⟩

theorem sameJumps_of {R : List Nat} {f g : Fn} (h1 : ∀ b ∈ R, ∀ x ∈ f.body b, (f.insn x).op ≠ .phi → x ∈ g.body b ∧ Like f g x)
    (h2 : ∀ b ∈ R, ∀ x ∈ g.body b, (x ∈ f.body b ∧ Like f g x) ∨ ¬ Turn (g.insn x).op) : SameJumps R f g := fun b hb =>
  ⟨fun x hx hj => h1 b hb x hx hj, fun x hx hj => (h2 b hb x hx).resolve_right (fun h => h hj)⟩

/-- The blocks, the edges, the jumps and the special instructions stay. -/
structure Frame (R : List Nat) (f g : Fn) : Prop where
  entry : g.entry = f.entry
  succs : g.succs = f.succs
  preds : g.preds = f.preds
  allBbs : g.allBbs = f.allBbs
  sp : g.sp = f.sp
  jumps : SameJumps R f g

theorem Frame.rfl' (R : List Nat) (f : Fn) : Frame R f f := ⟨rfl, rfl, rfl, rfl, rfl, .rfl' R f⟩

theorem Frame.trans {R : List Nat} {f g h : Fn} (a : Frame R f g) (b : Frame R g h) : Frame R f h :=
  ⟨b.entry.trans a.entry, b.succs.trans a.succs, b.preds.trans a.preds, b.allBbs.trans a.allBbs, b.sp.trans a.sp, a.jumps.trans b.jumps⟩

theorem frame_of_grown {R : List Nat} {f g : Fn} {H N M T : Nat → List Nat} (h : Grown f g H N M T) (hj : SameJumps R f g) : Frame R f g :=
  ⟨h.entry, h.succs, h.preds, h.allBbs, h.sp, hj⟩

theorem Frame.graph {R : List Nat} {f g : Fn} (h : Frame R f g) (hg : Graph f) : Graph g := by
  refine ⟨?_, ?_, ?_⟩ <;> rw [h.allBbs]
  · rw [h.succs, h.preds]; exact hg.sym
  · rw [h.succs]; exact hg.succs
  · rw [h.preds]; exact hg.preds

theorem Frame.conn {R : List Nat} {f g : Fn} (h : Frame R f g) {b : Nat} (hc : Conn f b) : Conn g b := by
  induction hc with
  | entry => rw [← h.entry]; exact .entry
  | step _ hs ih => exact .step ih (by rw [h.succs]; exact hs)

theorem spillOne_frame {s s' : Cg} {R : List Nat} {rg : Nat → Nat} {d : BitVec 16} {off off' : Int} {v : Nat} (h : Holds s R rg d off) (hv : VictimR s R v)
    (e : spillOne v s off = .ok (s', off')) : Frame R s.f s'.f := by
  by_cases ho : (s.f.insn v).op = .alloc
  · unfold spillOne at e
    rw [if_neg (fun h => h.elim (hasResult_jmp hv.1.op.1).2 hv.1.op.2), if_pos ho] at e
    cases e
    exact .rfl' _ _
  · obtain ⟨s1, H, N, T, e1, hI⟩ := spill_inv (off := off) h.ready.base hv.1 ho
    rw [e] at e1
    cases e1
    refine frame_of_grown hI.grown (sameJumps_of (fun b hb x hx _ => ?_) (fun b hb x hx => ?_))
    · have hbb := h.ready.sub b hb
      refine ⟨hI.grown.stay hbb hx, hI.op hbb hx, ?_⟩
      rcases hI.insn_old h.ready.base hbb hx with ⟨t, e, -⟩ | ⟨-, q, e, -⟩ <;> rw [e] <;> exact ⟨rfl, rfl⟩
    · have hbb := h.ready.sub b hb
      rcases hI.cases hbb hx with hx | hx
      · refine .inl ⟨hx, hI.op hbb hx, ?_⟩
        rcases hI.insn_old h.ready.base hbb hx with ⟨t, e, -⟩ | ⟨-, q, e, -⟩ <;> rw [e] <;> exact ⟨rfl, rfl⟩
      · refine .inr ?_
        rcases hI.insn_new hx with e | e | e <;> rw [e] <;> rintro ((h | h) | h) <;> cases h

theorem spill_all {R : List Nat} {rg : Nat → Nat} {d : BitVec 16} : ∀ (vs : List Nat) (s s' : Cg) (off off' : Int), Holds s R rg d off → (∀ v ∈ vs, VictimR s R v) → vs.Nodup →
    spill vs s off = .ok (s', off') → Holds s' R rg d off' ∧ Frame R s.f s'.f
  | [], s, s', off, off', h, _, _, e => by cases e; exact ⟨h, .rfl' _ _⟩
  | v :: vs, s, s', off, off', h, hv, hn, e => by
    obtain ⟨hvn, hn⟩ := List.nodup_cons.1 hn
    unfold spill at e
    obtain ⟨⟨s1, off1⟩, e1, e2⟩ := Out.bind_eq_ok.1 e
    obtain ⟨h1, h2⟩ := spill_holds h (hv v List.mem_cons_self) e1
    obtain ⟨h3, h4⟩ := spill_all vs s1 s' off1 off' h1 (fun w hw => h2 w (fun e => hvn (by rw [← e]; exact hw)) (hv w (List.mem_cons_of_mem _ hw))) hn e2
    exact ⟨h3, (spillOne_frame h (hv v List.mem_cons_self) e1).trans h4⟩

theorem const_frame {s s' : Cg} {R : List Nat} {rg : Nat → Nat} {d : BitVec 16} {off : Int} (h : Holds s R rg d off) (hR : R.Nodup) (e : spillConst R s = .ok s') :
    Frame R s.f s'.f := by
  have hB := h.ready.base
  obtain ⟨s1, N, e1, hI⟩ := CInv.loop hB (R.flatMap s.f.body) s _ _ (CInv.start hB s.pos) (fun x hx => by
    obtain ⟨b, hb, hx⟩ := List.mem_flatMap.1 hx
    exact ⟨⟨b, hB.sub b hb, hx⟩, fun h => h⟩) (nodup_bodies hB.tidy hB.sub hR)
  have : spillConst R s = constsToRegs (R.flatMap s.f.body) s := rfl
  rw [this, e1] at e
  cases e
  have like : ∀ b ∈ R, ∀ x ∈ s.f.body b, Like s.f s'.f x := fun b hb x hx => by
    have := hI.op (hB.tidy.lt x (.inr (.inr ⟨b, hB.sub b hb, hx⟩)))
    exact ⟨this.1, this.2.1, this.2.2.1⟩
  refine frame_of_grown hI.grown (sameJumps_of (fun b hb x hx _ => ⟨hI.grown.stay (hB.sub b hb) hx, like b hb x hx⟩) (fun b hb x hx => ?_))
  rcases hI.mem (hB.sub b hb) hx with hx | hx
  · exact .inl ⟨hx, like b hb x hx⟩
  · obtain ⟨v, e, -⟩ := hI.new _ hx.1 hx.2
    refine .inr ?_
    rw [e]
    rintro ((h | h) | h) <;> cases h

/-- Up to the allocation blocks, edges and jumps stay; only instructions for registers are added to the arguments. -/
theorem prepare_frame {f : Fn} {R : List Nat} {d : BitVec 16} {s : Cg} {off : Int} (hr : Ready f R) (hn : Neat f R) (hF : Fits f R d)
    (ha : ∀ b ∈ R, ∀ x ∈ f.body b, (f.insn x).op = .allocarray → 0 < arrBytes (f.insn x) ∧ arrBytes (f.insn x) + 7 < 2 ^ 32) (e : prepare f R = .ok (s, off)) :
    Frame R f s.f := by
  obtain ⟨s0, rn, H, N, M, e0, h, C, A, hl, hC, -⟩ := lower_ok hr
  have h0 := lower_ready hr hn h hl hC
  obtain ⟨k1, k2, k3, k4, k5, k6⟩ := lower_shape hr hF h hl hC
  obtain ⟨s1, off1, e1, hsf, -⟩ := C54_arrays h0 hr.nodup (lower_arrays hr hl hC ha)
  have H1 := arrays_holds h0 k1 k2 k3 k4 k5 k6 hr.nodup (lower_arrays hr hl hC ha) e1
  obtain ⟨s2, e2, -⟩ := C53_const H1.ready hr.nodup
  have H2 := const_frame H1 hr.nodup e2
  unfold prepare at e
  rw [e0, Out.ok_bind, e1, Out.ok_bind] at e
  dsimp only at e
  rw [e2, Out.ok_bind] at e
  cases e
  have hj : SameJumps R f s0.f := by
    refine sameJumps_of (fun b hb x hx _ => ?_) (fun b hb x hx => ?_)
    · refine ⟨hl.core.grown.stay (hr.blocks b hb) hx, ?_⟩
      have hxl : Live f x := .inr (.inr ⟨b, hr.blocks b hb, hx⟩)
      have e := init_insn (hr.tidy.lt x hxl)
      by_cases hxC : x ∈ C
      · unfold Like
        rw [hl.core.done x hxC, e]
        exact ⟨rfl, rfl, rfl⟩
      · unfold Like
        rw [hl.core.old x (init_live.2 (.inl hxl)) hxC, e]
        exact ⟨mapOps_op _ _, rfl, rfl⟩
    · rcases hl.cases hr.tidy hC (hr.blocks b hb) hx with ⟨h1, ⟨h2, h3⟩ | ⟨h2, h3⟩⟩ | ⟨v, h1⟩
      · exact .inl ⟨h1, by rw [h3], by rw [h3], by rw [h3]⟩
      · exact .inl ⟨h1, by rw [h3, mapOps_op], by rw [h3]; rfl, by rw [h3]; rfl⟩
      · exact .inr (by rw [h1]; rintro ((h | h) | h) <;> cases h)
  have h1 : Frame R f s0.f := ⟨hl.core.grown.entry, hl.core.grown.succs, hl.core.grown.preds, hl.core.grown.allBbs, hl.core.grown.sp, hj⟩
  rw [← hsf] at h1
  exact h1.trans H2

/-! ## The values chosen for spilling -/

theorem spillLoop_nodup {s : RA.St} : ∀ (fuel : Nat) (eps : List (List Nat)) (l : List Nat), RA.spillLoop s fuel eps = .ok l → l.Nodup ∧ ∀ v ∈ l, ∃ q ∈ eps, v ∈ q
  | fuel, eps, l, h => by
    unfold RA.spillLoop at h
    split at h
    · cases h; simp
    · rename_i cur hc
      split at h
      · cases h
      · rename_i fuel
        split at h
        · cases h
        · rename_i v hp
          obtain ⟨l1, h1, h2⟩ := Out.bind_eq_ok.1 h
          cases h2
          obtain ⟨h3, h4⟩ := spillLoop_nodup fuel _ l1 h1
          have hcur := List.mem_of_find?_eq_some hc
          have hv : v ∈ cur := by
            rcases RA.pickMax_some hp with h5 | ⟨h5, -⟩
            · cases h5
            · exact h5
          refine ⟨List.nodup_cons.2 ⟨fun hm => ?_, h3⟩, fun w hw => ?_⟩
          · obtain ⟨q, hq, hvq⟩ := h4 v hm
            obtain ⟨q', -, rfl⟩ := List.mem_map.1 hq
            simp at hvq
          · rcases List.mem_cons.1 hw with rfl | hw
            · exact ⟨cur, hcur, hv⟩
            · obtain ⟨q, hq, hvq⟩ := h4 w hw
              obtain ⟨q', hq', rfl⟩ := List.mem_map.1 hq
              exact ⟨q', hq', (List.mem_filter.1 hvq).1⟩
  termination_by fuel => fuel

theorem preSpillAlong_nodup {s s' : RA.St} {l : List Nat} (h : RA.preSpillAlong s = .ok (s', l)) : l.Nodup := by
  unfold RA.preSpillAlong at h
  dsimp only at h
  split at h
  · rename_i l1 h1
    cases h
    exact (spillLoop_nodup _ _ _ h1).1
  all_goals cases h

/-! ## The rounds -/

theorem Holds.rg_inj {s : Cg} {R : List Nat} {rg : Nat → Nat} {d : BitVec 16} {off : Int} (h : Holds s R rg d off) {i j : Nat} (hi : i < 10) (hj : j < 10)
    (e : rg i = rg j) : i = j := by
  have h1 := h.pos.rg i hi
  rw [e, h.pos.rg j hj] at h1
  have h2 : (Fin.ofNat 11 j : Fin 11) = Fin.ofNat 11 i := congrArg VrPos.reg h1
  have h3 := congrArg Fin.val h2
  simp only [Fin.val_ofNat] at h3
  omega

theorem mem_allVar {s : Cg} {R : List Nat} {rg : Nat → Nat} {v : Nat} : v ∈ (raOf R rg s).allVar ↔
    (∃ i, i < 10 ∧ v = rg i) ∨ (InR s.f R v ∧ (dst s.f v).isSome = true ∧ (s.pos v).allocated = false) := by
  unfold raOf Live.vars Live.insns InR
  simp only [List.mem_append, List.mem_map, List.mem_range, List.mem_filter, List.mem_flatMap, Bool.and_eq_true, Bool.not_eq_true']
  constructor
  · rintro (⟨i, hi, rfl⟩ | ⟨⟨b, hb, hx⟩, h1, h2⟩)
    · exact .inl ⟨i, hi, rfl⟩
    · exact .inr ⟨⟨b, hb, hx⟩, h1, h2⟩
  · rintro (⟨i, hi, rfl⟩ | ⟨⟨b, hb, hx⟩, h1, h2⟩)
    · exact .inl ⟨i, hi, rfl⟩
    · exact .inr ⟨⟨b, hb, hx⟩, h1, h2⟩

theorem Holds.allVar_nodup {s : Cg} {R : List Nat} {rg : Nat → Nat} {d : BitVec 16} {off : Int} (h : Holds s R rg d off) (hR : R.Nodup) : (raOf R rg s).allVar.Nodup := by
  unfold raOf
  dsimp only
  rw [List.nodup_append]
  refine ⟨?_, ?_, ?_⟩
  · rw [List.nodup_iff_pairwise_ne, List.pairwise_map]
    refine List.Pairwise.imp_of_mem ?_ (List.nodup_iff_pairwise_ne.1 List.nodup_range)
    intro a b ha hb hne e
    exact hne (h.rg_inj (List.mem_range.1 ha) (List.mem_range.1 hb) e)
  · exact (nodup_bodies h.ready.tidy h.ready.sub hR).filter _
  · intro a ha b hb e
    obtain ⟨i, hi, rfl⟩ := List.mem_map.1 ha
    obtain ⟨c, hc, hx⟩ := List.mem_flatMap.1 (List.mem_filter.1 hb).1
    rw [← e] at hx
    exact (h.ready.tidy.fixed c (h.ready.sub c hc) _ hx).2 (h.regs i (List.mem_range.1 hi))

theorem dst_of_result {f : Fn} {x : Nat} : dst f x = if hasResult (f.insn x).op then some x else none := by
  unfold dst
  cases (f.insn x).op <;> rfl

/-- The allocator starts with the machine registers in place and without conflicts. -/
theorem Holds.start {s : Cg} {R : List Nat} {rg : Nat → Nat} {d : BitVec 16} {off : Int} (h : Holds s R rg d off) : RA.Start (raOf R rg s) := by
  refine ⟨fun i hi => ?_, fun v => rfl, fun v hv => h.pos.free v hv⟩
  have hp := h.pos.rg i hi
  have hm : i % 11 = i := Nat.mod_eq_of_lt (by unfold RA.colors at hi; omega)
  simp [raOf, RA.VrPos.inReg, hp, hm]

theorem posIn_raOf (R : List Nat) (rg : Nat → Nat) (s : Cg) : Loc.posIn (raOf R rg s) = s.pos := by
  funext x
  unfold Loc.posIn Loc.posOf raOf
  dsimp only
  have : Fin.ofNat 11 (s.pos x).reg.val = (s.pos x).reg := by
    apply Fin.ext
    simp only [Fin.val_ofNat]
    exact Nat.mod_eq_of_lt (s.pos x).reg.isLt
  rw [this]

/-- What the rounds of register allocation have done. -/
structure Rounds (s : Cg) (off : Int) (R : List Nat) (rg : Nat → Nat) (d : BitVec 16) (al : Allocated) : Prop where
  run : ∃ vss, Choices vss s off ∧ rounds vss s off = .ok (al.s, al.off)
  holds : Holds al.s R rg d al.off
  frame : Frame R s.f al.s.f
  last : ∃ l s1, Live.analyse al.s.f R (dst al.s.f) (raOf R rg al.s) = .ok (l, s1) ∧ RA.SameGraph s1 al.ra ∧ al.ra.seo.Perm (raOf R rg al.s).allVar
  keeps : ∀ Q : Cg → Prop, (∀ s s' off off' vs, Holds s R rg d off → (∀ v ∈ vs, VictimR s R v) → vs.Nodup → Q s → spill vs s off = .ok (s', off') → Q s') → Q s → Q al.s

theorem allocate_ok {R : List Nat} {rg : Nat → Nat} {d : BitVec 16} (hR : R.Nodup) : ∀ (n : Nat) (s : Cg) (off : Int) (al : Allocated), Holds s R rg d off →
    allocate R rg n s off = .ok al → Rounds s off R rg d al
  | 0, s, off, al, h, e => by cases e
  | n + 1, s, off, al, h, e => by
    unfold allocate at e
    obtain ⟨⟨l, s1⟩, e1, e⟩ := Out.bind_eq_ok.1 e
    obtain ⟨⟨s2, vs⟩, e2, e⟩ := Out.bind_eq_ok.1 e
    dsimp only at e e2
    have hsame : RA.SamePos (raOf R rg s) s1 := by
      obtain ⟨l0, -, h2⟩ := Out.bind_eq_ok.1 e1
      obtain ⟨c, -, h4⟩ := Out.bind_eq_ok.1 h2
      obtain ⟨s0, h5, h6⟩ := Out.bind_eq_ok.1 h4
      cases h6
      exact RA.conflicts_same h5
    unfold RA.preSpill at e2
    obtain ⟨m, e3, e4⟩ := Out.bind_eq_ok.1 e2
    have hn1 : s1.allVar.Nodup := by rw [hsame.allVar]; exact h.allVar_nodup hR
    obtain ⟨m', e5, hg1, hperm⟩ := RA.mcs_ok hn1
    rw [e3] at e5
    cases e5
    have hnv : ∀ v, (m.cg v).nonvr = ((raOf R rg s).cg v).nonvr := fun v => (hg1.nonvr v).trans (hsame.nonvr v)
    have hseo : ∀ v ∈ m.seo, v ∈ (raOf R rg s).allVar := fun v hv => by rw [← hsame.allVar]; exact hperm.mem_iff.1 hv
    have hregs : m.regs = rg := hg1.regs.trans hsame.regs
    obtain ⟨q, vs', e6, hg2, hs2, hvs, -⟩ := RA.preSpillAlong_ok (s := m) (fun v hv hnon => by
      rw [hregs]
      rcases mem_allVar.1 (hseo v hv) with ⟨i, hi, e⟩ | ⟨⟨b, hb, hx⟩, -, -⟩
      · exact ⟨i, hi, e⟩
      · exfalso
        rw [hnv] at hnon
        have hfix := h.ready.tidy.fixed b (h.ready.sub b hb) v hx
        simp only [raOf, Bool.or_eq_true, decide_eq_true_eq, List.any_eq_true, List.mem_range, beq_iff_eq] at hnon
        rcases hnon with e | ⟨i, hi, e⟩
        · exact hfix.1 e
        · exact hfix.2 (by rw [← e]; exact h.regs i hi))
    have hnd := preSpillAlong_nodup e4
    rw [e4] at e6
    cases e6
    have hvic : ∀ v ∈ vs, VictimR s R v := by
      intro v hv
      obtain ⟨h1, h2⟩ := hvs v hv
      rw [hnv] at h1
      rcases mem_allVar.1 (hseo v h2) with ⟨i, hi, e⟩ | ⟨hx, hd, hf⟩
      · exfalso
        simp only [raOf, Bool.or_eq_false_iff, List.any_eq_false, List.mem_range, beq_iff_eq] at h1
        exact h1.2 i hi e.symm
      · refine ⟨⟨hx.inBody h.ready.sub, ⟨?_, fun ho => ?_⟩, hf⟩, hx⟩
        · rw [dst_of_result] at hd
          split at hd
          · assumption
          · cases hd
        · have := (h.arrays v hx ho).1
          rw [hf] at this
          cases this
    cases vs with
    | nil =>
      cases e
      exact ⟨⟨[], trivial, rfl⟩, h, .rfl' _ _, ⟨l, s1, e1, hg1.trans hg2, (by rw [hs2]; exact hperm.trans (by rw [hsame.allVar]))⟩, fun _ _ h0 => h0⟩
    | cons v vs =>
      obtain ⟨⟨s3, off3⟩, e7, e8⟩ := Out.bind_eq_ok.1 e
      obtain ⟨h1, h2⟩ := spill_all (v :: vs) s s3 off off3 h hvic hnd e7
      have ih := allocate_ok hR n s3 off3 al h1 e8
      obtain ⟨vss, hc, hr⟩ := ih.run
      refine ⟨⟨(v :: vs) :: vss, ⟨fun w hw => (hvic w hw).1, hnd, fun s' off' e9 => ?_⟩, ?_⟩, ih.holds, h2.trans ih.frame, ih.last, fun Q hQ h0 => ih.keeps Q hQ (hQ s s3 off off3 (v :: vs) h hvic hnd h0 e7)⟩
      · rw [e7] at e9
        cases e9
        exact hc
      · unfold rounds
        rw [e7, Out.ok_bind]
        exact hr

end Verif.Compile
