import Verif.Compile.Props
import Verif.Cg.NeedCheck
import Verif.Cg.Examples
import Verif.Stack.Places
/-!
# Tests for the hypotheses of C57, for examples
-/
namespace Verif.Compile
open Verif Verif.IR Verif.Edit Verif.Cg
open Verif.Loc (places placeOf virt hasResult RegsKept CopiesFit copiesAt reads place)
open Verif.Norm (VrPos Reg Op)

/-- A test for `InsnOk`. -/
def insnB (op : Nat → Op) (sp : Nat) (d : BitVec 16) (i : Insn) : Bool :=
  decide (i.op ≠ .throw) &&
  (ids (operands i)).all (fun y => !decide (op y = .alloc) || (decide (i.op = .load ∨ i.op = .store) && match i.vals with | .insn z :: r => decide (z = y ∧ .insn y ∉ r) | _ => false)) &&
  (ids (operands i)).all (fun y => !decide (op y = .allocarray) || (decide (i.op = .getelemptr) && match i.vals with | [v, .insn z] => decide (z = y ∧ v ≠ .insn y) | _ => false)) &&
  (!decide (i.op = .getelemptr) || match i.vals with | [_, .insn _] => true | _ => false) &&
  (!raw i.op || match i.addr with | .const k _ _ _ => decide (k = .plain) | _ => true) &&
  (raw i.op || match i.addr with | .insn _ => false | _ => true) &&
  Stack.formB sp d i

theorem insn_of_check {op : Nat → Op} {sp : Nat} {d : BitVec 16} {i : Insn} (h : insnB op sp d i = true) : InsnOk op sp d i := by
  simp only [insnB, Bool.and_eq_true, List.all_eq_true, Bool.or_eq_true, Bool.not_eq_true', decide_eq_true_eq, decide_eq_false_iff_not] at h
  obtain ⟨⟨⟨⟨⟨⟨h1, h2⟩, h3⟩, h4⟩, h5⟩, h6⟩, h7⟩ := h
  refine ⟨h1, fun y hy ha => ?_, fun y hy ha => ?_, fun ho v w e => ?_, fun hr k c t u e => ?_, fun hr y e => ?_, Stack.form_of_check h7⟩
  · rcases h2 y (mem_ids.2 hy) with h | ⟨h, h'⟩
    · exact absurd ha h
    · refine ⟨h, ?_⟩
      split at h'
      · rename_i z r e
        obtain ⟨rfl, h8⟩ := of_decide_eq_true h'
        exact ⟨r, e, h8⟩
      · cases h'
  · rcases h3 y (mem_ids.2 hy) with h | ⟨h, h'⟩
    · exact absurd ha h
    · refine ⟨h, ?_⟩
      split at h'
      · rename_i v z e
        obtain ⟨rfl, h8⟩ := of_decide_eq_true h'
        exact ⟨v, e, h8⟩
      · cases h'
  · rcases h4 with h | h
    · exact absurd ho h
    · rw [e] at h
      split at h
      · rename_i e2
        cases e2
        exact ⟨_, rfl⟩
      · cases h
  · rcases h5 with h | h
    · rw [hr] at h; cases h
    · rw [e] at h
      exact of_decide_eq_true h
  · rcases h6 with h | h
    · rw [hr] at h; cases h
    · rw [e] at h
      cases h

/-- A test for `Fits`. -/
def fitsB (f : Fn) (R : List Nat) (d : BitVec 16) : Bool :=
  R.all (fun b => (f.body b).all fun x => insnB (ops f) f.sp d (f.insn x)) &&
  R.all (fun b => (f.body b).all fun x => (ids (operands (f.insn x))).all fun y => decide (y = f.sp) || decide (y ∈ f.args) ||
    (R.any (fun c => decide (y ∈ f.body c)) && (hasResult (f.insn y).op || decide ((f.insn y).op = .call)))) &&
  R.all (fun b => (f.body b).all fun x => !decide ((f.insn x).op = .phi) || (f.insn x).phi.all fun o => decide (o.1 ∈ R)) &&
  f.args.all (fun y => decide ((f.insn y).op ≠ .allocarray)) &&
  R.all (fun b => (f.body b).all fun a => !decide ((f.insn a).op = .alloc) ||
    (cuts (f.body f.entry)).any fun c => decide (f.body f.entry = c.1 ++ c.2.1 :: c.2.2) && decide (c.2.1 = a) && c.1.all fun x => decide (refs (f.insn x) a = 0)) &&
  decide ((f.insn f.sp).op = .reg)

theorem fits_of_check {f : Fn} {R : List Nat} {d : BitVec 16} (h : fitsB f R d = true) : Fits f R d := by
  simp only [fitsB, Bool.and_eq_true, List.all_eq_true, Bool.or_eq_true, Bool.not_eq_true', decide_eq_true_eq, decide_eq_false_iff_not, List.any_eq_true] at h
  obtain ⟨⟨⟨⟨⟨h1, h2⟩, h3⟩, h4⟩, h5⟩, h6⟩ := h
  refine ⟨?_, ?_, ?_, h4, ?_, h6⟩
  · rintro x ⟨b, hb, hx⟩
    exact insn_of_check (h1 b hb x hx)
  · rintro x ⟨b, hb, hx⟩ y hy
    rcases h2 b hb x hx y (mem_ids.2 hy) with (h | h) | ⟨⟨c, hc, hy⟩, h⟩
    · exact .inl h
    · exact .inr (.inl h)
    · exact .inr (.inr ⟨⟨c, hc, hy⟩, h⟩)
  · rintro x ⟨b, hb, hx⟩ ho o hm
    rcases h3 b hb x hx with h | h
    · exact absurd ho h
    · exact h o hm
  · rintro a ⟨b, hb, ha⟩ ho -
    rcases h5 b hb a ha with h | ⟨c, -, ⟨e, rfl⟩, h⟩
    · exact absurd ho h
    · exact ⟨c.1, c.2.2, e, h⟩

/-- Different values have different places, except machine registers. -/
theorem Holds.far {s : Cg} {R : List Nat} {rg : Nat → Nat} {d : BitVec 16} {off : Int} (h : Holds s R rg d off) {x y : Nat} (hx : 10 < places s.pos x)
    (e : places s.pos x = places s.pos y) : x = y := by
  have key : ∀ z, 10 < places s.pos z → places s.pos z = virt z ∨ ((s.pos z).spilled ≠ 0 ∧ places s.pos z = 11 + 3 * (s.pos z).spilled.natAbs) := by
    intro z hz
    cases ha : (s.pos z).allocated with
    | false => exact .inl (Loc.places_free ha)
    | true =>
      rw [Loc.places_alloc ha] at hz ⊢
      by_cases hs : (s.pos z).spilled = 0
      · rw [Loc.placeOf_reg hs] at hz
        have := (s.pos z).reg.isLt
        omega
      · have := h.pos.neg z hs
        refine .inr ⟨hs, ?_⟩
        unfold placeOf
        rw [if_neg hs, if_pos (by omega)]
  have hy : 10 < places s.pos y := by rw [← e]; exact hx
  apply Classical.byContradiction
  intro hne
  rcases key x hx with h1 | ⟨h1, h2⟩ <;> rcases key y hy with h3 | ⟨h3, h4⟩
  · exact hne (Loc.virt_inj (by rw [← h1, ← h3, e]))
  · unfold virt at h1; omega
  · unfold virt at h3; omega
  · have h5 := h.pos.neg x h1
    have h6 := h.pos.neg y h3
    rcases h.pos.apart x y hne h1 h3 with h7 | h7 <;> omega

/-- A test for `CopiesFit`; `E` are the places needed at the start of the code of the blocks. -/
def copiesB (f : Fn) (R : List Nat) (l : Nat → Nat) (E : Nat → List Nat) : Bool :=
  R.all (fun b => (f.succs b).all (fun c => decide (c ∈ R))) &&
  R.all (fun b => (needL f l E b (codeOf f b)).all (fun q => decide (q ∈ E b))) &&
  R.all (fun p => (f.body p).all (fun z => decide (Loc.control (f.insn z).op = true → (f.insn z).op ≠ .phi → ∀ o ∈ copiesAt f R p, l o.1 ∉ reads l (f.insn z)))) &&
  R.all (fun p => (f.succs p).all (fun c => (copiesAt f R p).all (fun o => !decide (l o.1 ∈ needL f l E c (codeOf f c)) || decide (o.1 ∈ phisOf f c)))) &&
  R.all (fun p => decide ((copiesAt f R p).Pairwise (fun o o' => l o.1 ∉ place l o'.2))) &&
  R.all (fun p => (copiesAt f R p).all (fun o => decide (o.2 ≠ .undef))) &&
  R.all (fun c => (phisOf f c).all (fun x => decide (((f.insn x).phi.map (·.1)).Nodup)))

theorem copies_of_check {f : Fn} {R : List Nat} {l : Nat → Nat} {E : Nat → List Nat} (h : copiesB f R l E = true) : CopiesFit f R l := by
  simp only [copiesB, Bool.and_eq_true, List.all_eq_true, decide_eq_true_eq, Bool.or_eq_true, Bool.not_eq_true', decide_eq_false_iff_not] at h
  obtain ⟨⟨⟨⟨⟨⟨h6, h7⟩, h1⟩, h2⟩, h3⟩, h4⟩, h5⟩ := h
  refine ⟨h1, ?_, h4, h5⟩
  intro p hp c hc A x v B e hn _
  have hm : (x, v) ∈ copiesAt f R p := by rw [e]; simp
  refine ⟨(h2 p hp c hc _ hm).resolve_left (fun hk => hk (needL_of h6 h7 hn (h6 p hp c hc))), ?_⟩
  intro o ho
  have h6 := h3 p hp
  rw [e] at h6
  exact (List.pairwise_append.1 h6).2.2 o ho _ (List.mem_cons_self ..)

/-- A test for `RA.Apart`, where only the values `vs` have neighbours or registers. -/
def apartB (s : RA.St) (vs : List Nat) : Bool :=
  vs.all fun u => (s.cg u).adj.all fun v => decide (u = v) || match (s.cg u).pos.inReg with | some r => decide ((s.cg v).pos.inReg ≠ some r) | none => true

theorem apart_of_check {s : RA.St} {vs : List Nat} (h : apartB s vs = true) (hv : ∀ u, u ∉ vs → (s.cg u).pos.inReg = none ∨ (s.cg u).adj = []) : RA.Apart s := by
  simp only [apartB, List.all_eq_true, Bool.or_eq_true, decide_eq_true_eq] at h
  intro u v hm hne r hr
  by_cases hu : u ∈ vs
  · have := (h u hu v hm).resolve_left hne
    rw [hr] at this
    exact of_decide_eq_true this
  · rcases hv u hu with h1 | h1
    · rw [h1] at hr; cases hr
    · rw [h1] at hm; cases hm

theorem colored_apart {s0 : Cg} {off0 : Int} {R : List Nat} {rg : Nat → Nat} {d : BitVec 16} {al : Allocated} {c m : RA.St} (h : Rounds s0 off0 R rg d al)
    (hg : Graph s0.f) (hc : RA.coloring al.ra = .ok c) (hm : RA.coalescing (copiesOf al.s.f R) c = .ok m)
    (hfix : NotFixed (raOf R rg al.s) (copiesOf al.s.f R)) (hB : apartB m al.ra.seo = true) : RA.Apart m := by
  obtain ⟨l, s1, hl, hsg, hperm⟩ := h.last
  obtain ⟨reqs, h1, -⟩ := Loc.analyse_reqs_ok (h.holds.liveOk (h.frame.graph hg)) hl
  have hst := h.holds.start
  have sp0 := RA.conflicts_same h1
  have g' : RA.Gr al.ra := (RA.conflicts_gr hst.gr h1).ofSame hsg
  obtain ⟨dd, -⟩ := RA.colorAll_ok hc
  have fin2 : ∀ v, (c.cg v).fin = ((raOf R rg al.s).cg v).fin := fun v => ((dd.fin v).trans (hsg.fin v)).trans (sp0.fin v)
  have mm := coalescing_moves hm (fun p hp => by rw [fin2, fin2]; exact hfix p hp)
  refine apart_of_check hB (fun u hu => ?_)
  have hp : (al.ra.cg u).pos = ((raOf R rg al.s).cg u).pos := (hsg.pos u).trans (sp0.pos u)
  have hrg : ∀ i, i < RA.colors → u ≠ al.ra.regs i := by
    intro i hi e
    refine hu (hperm.mem_iff.2 (mem_allVar.2 (.inl ?_)))
    rw [hsg.regs.trans sp0.regs] at e
    exact ⟨i, hi, e⟩
  cases ha : (al.s.pos u).allocated with
  | false =>
    refine .inl (RA.inReg_unalloc ?_)
    rw [mm.alloc, dd.other u hu, hp]
    exact ha
  | true =>
    right
    rw [mm.adj, dd.adj]
    apply List.eq_nil_iff_forall_not_mem.2
    intro v hv
    rcases g'.vert v u (g'.sym u v hv) with k | ⟨i, hi, k⟩
    · rw [hp] at k
      have k : (al.s.pos u).allocated = false := k
      rw [ha] at k
      cases k
    · exact hrg i hi k

/-- The places needed at the start of the code of the blocks, by `n` rounds. -/
def needFix (f : Fn) (l : Nat → Nat) (R : List Nat) : Nat → List (Nat × List Nat)
  | 0 => []
  | n + 1 =>
    let E := needFix f l R n
    R.map fun b => (b, (needL f l (fun c => (E.lookup c).getD []) b (codeOf f b)).eraseDups)

def needAt (f : Fn) (l : Nat → Nat) (R : List Nat) (n : Nat) : Nat → List Nat :=
  let E := needFix f l R n
  fun b => (E.lookup b).getD []

/-- A test for `Regular`. -/
def regularB (f : Fn) (R : List Nat) (r : Result) : Bool :=
  apartB r.ra r.al.ra.seo &&
  keptB r.al.s.f R (places r.al.s.pos) (places (regPos r.ra)) (needAt r.al.s.f (places r.al.s.pos) R 4) (R.flatMap r.al.s.f.body) &&
  copiesB r.shifted R (places (regPos r.ra)) (needAt r.shifted (places (regPos r.ra)) R 4)

theorem regular_of_check {f : Fn} {R : List Nat} {r : Result} (e : compile f R = .ok r) (hr : Lower.Ready f R) (hn : Lower.Neat f R) (hF : Fits f R r.depth)
    (ha : ∀ b ∈ R, ∀ x ∈ f.body b, (f.insn x).op = .allocarray → 0 < arrBytes (f.insn x) ∧ arrBytes (f.insn x) + 7 < 2 ^ 32) (hg : Graph f)
    (h : regularB f R r = true) : Regular f R r := by
  simp only [regularB, Bool.and_eq_true] at h
  obtain ⟨⟨h2, h3⟩, h4⟩ := h
  unfold compile at e
  obtain ⟨⟨s0, off0⟩, e1, e⟩ := Out.bind_eq_ok.1 e
  obtain ⟨al, e2, e⟩ := Out.bind_eq_ok.1 e
  obtain ⟨c, e3, e⟩ := Out.bind_eq_ok.1 e
  obtain ⟨m, e4, e⟩ := Out.bind_eq_ok.1 e
  obtain ⟨t, e5, e⟩ := Out.bind_eq_ok.1 e
  obtain ⟨bs, e6, e⟩ := Out.bind_eq_ok.1 e
  obtain ⟨code, e7, e⟩ := Out.bind_eq_ok.1 e
  cases e
  have hH := prepare_holds hr hn hF ha e1
  have hFr := prepare_frame hr hn hF ha e1
  have hRo := allocate_ok hr.nodup 6 s0 off0 al hH e2
  exact ⟨colored_apart hRo (hFr.graph hg) e3 e4 (allocated_fixed hr hn hF ha e1 hRo) h2, kept_of_check h3 (fun x y => hRo.holds.far), copies_of_check h4⟩

end Verif.Compile
