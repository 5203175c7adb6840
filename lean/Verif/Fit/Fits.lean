import Verif.Fit.Safe
import Verif.Compile.Props
/-!
# If nothing is spilled, the choices of the register allocator are regular
-/
namespace Verif.Fit
open Verif Verif.IR Verif.Edit Verif.Cg Verif.Loc Verif.Compile
open Verif.Lower (Ready Neat own)
open Verif.Norm (VrPos Reg Op)

/-! ## Stack offsets do not matter for the copies -/

theorem place_shift (l : Nat → Nat) (d : BitVec 16) (v : Val) : place l (Stack.shiftVal d v) = place l v := by
  cases v with
  | const k => cases k <;> rfl
  | _ => rfl

theorem place_shifts (l : Nat → Nat) (d : BitVec 16) : ∀ vs : List Val, (vs.map (Stack.shiftVal d)).flatMap (place l) = vs.flatMap (place l)
  | [] => rfl
  | v :: vs => by rw [List.map_cons, List.flatMap_cons, List.flatMap_cons, place_shifts l d vs, place_shift]

theorem reads_mapOps (l : Nat → Nat) (d : BitVec 16) (i : Insn) : reads l (mapOps (Stack.shiftVal d) i) = reads l i := by
  unfold reads mapOps
  dsimp only
  split
  · rfl
  · rw [← List.map_tail, place_shifts]
  · rename_i e; rw [e]; exact place_shift l d _
  · rename_i e; rw [e, place_shifts]; rw [if_pos (by rfl), place_shift]
  · rw [place_shifts]

theorem writes_mapOps (l : Nat → Nat) (d : BitVec 16) (x : Nat) (i : Insn) : writes l x (mapOps (Stack.shiftVal d) i) = writes l x i := by
  unfold writes mapOps
  dsimp only
  split
  · rfl
  · rcases i.vals with _ | ⟨v, vs⟩
    · rfl
    · simp [place_shift]
  all_goals rfl

theorem shift_places (l : Nat → Nat) (d : BitVec 16) (x : Nat) (i : Insn) : reads l (Stack.shiftInsn d i) = reads l i ∧ writes l x (Stack.shiftInsn d i) = writes l x i := by
  unfold Stack.shiftInsn
  split
  · split
    · exact ⟨rfl, rfl⟩
    · exact ⟨rfl, rfl⟩
    · exact ⟨reads_mapOps l d i, writes_mapOps l d x i⟩
  · exact ⟨reads_mapOps l d i, writes_mapOps l d x i⟩

theorem shift_phi {d : BitVec 16} {i : Insn} (h : i.op = .phi) : (Stack.shiftInsn d i).phi = i.phi.map (fun o => (o.1, Stack.shiftVal d o.2)) := by
  unfold Stack.shiftInsn mapOps
  rw [if_neg (by rw [h]; simp)]
  dsimp only
  rw [if_pos h]

theorem shift_insn {d : BitVec 16} {v : Val} {y : Nat} (h : Stack.shiftVal d v = .insn y) : v = .insn y := by
  cases v with
  | const k => cases k <;> cases h
  | insn z => exact h
  | undef => cases h

theorem needed_shift {f : Fn} {l : Nat → Nat} {d : BitVec 16} {q b : Nat} {rest : List Nat} (h : Loc.Needed (Stack.shift d f) l q b rest) : Loc.Needed f l q b rest := by
  induction h with
  | @read b x rest h => exact .read (by rw [← (shift_places l d x (f.insn x)).1]; exact h)
  | @skip b x rest h _ ih => exact .skip (by rw [← (shift_places l d x (f.insn x)).2]; exact h) ih
  | @phi b c x y hc hx ho e =>
    rw [(Stack.phisOf_shift d f c).1] at hx
    rw [show (Stack.shift d f).insn x = Stack.shiftInsn d (f.insn x) from rfl, shift_phi (phisOf_phi hx)] at ho
    obtain ⟨o, ho, eo⟩ := List.mem_map.1 ho
    refine .phi hc hx ?_ e
    rw [← shift_insn (congrArg Prod.snd eo), ← show o.1 = b from congrArg Prod.fst eo]
    exact ho
  | @edge b c hc hne _ ih =>
    rw [(Stack.phisOf_shift d f c).1] at hne
    rw [(Stack.phisOf_shift d f c).2] at ih
    exact .edge hc hne ih

theorem copiesAt_shift (f : Fn) (R : List Nat) (d : BitVec 16) (p : Nat) : copiesAt (Stack.shift d f) R p = (copiesAt f R p).map (fun o => (o.1, Stack.shiftVal d o.2)) := by
  have e : R.flatMap (phisOf (Stack.shift d f)) = R.flatMap (phisOf f) := by
    rw [List.flatMap_def, List.flatMap_def]
    congr 1
    exact List.map_congr_left fun b _ => (Stack.phisOf_shift d f b).1
  unfold copiesAt
  rw [e, List.map_flatMap, List.flatMap_def, List.flatMap_def]
  congr 1
  refine List.map_congr_left fun x hx => ?_
  obtain ⟨b, hb, hx⟩ := List.mem_flatMap.1 hx
  rw [show (Stack.shift d f).insn x = Stack.shiftInsn d (f.insn x) from rfl, shift_phi (phisOf_phi hx), List.filter_map, List.map_map, List.map_map]
  rfl

theorem copiesFit_shift {f : Fn} {R : List Nat} {l : Nat → Nat} {d : BitVec 16} (h : CopiesFit f R l) : CopiesFit (Stack.shift d f) R l := by
  have back : ∀ {p o}, o ∈ copiesAt (Stack.shift d f) R p → ∃ o' ∈ copiesAt f R p, o.1 = o'.1 ∧ o.2 = Stack.shiftVal d o'.2 := fun {p o} ho => by
    rw [copiesAt_shift] at ho
    obtain ⟨o', ho', e⟩ := List.mem_map.1 ho
    exact ⟨o', ho', by rw [← e], by rw [← e]⟩
  refine ⟨fun p hp z hz hc hzp o ho => ?_, fun p hp c hc A x v B e hne hB => ?_, fun p hp o ho e => ?_, fun c hc x hx => ?_⟩
  · obtain ⟨o', ho', e, -⟩ := back ho
    rw [show (Stack.shift d f).insn z = Stack.shiftInsn d (f.insn z) from rfl, (shift_places l d z (f.insn z)).1, e]
    rw [(Stack.shift_op d f z).1] at hc hzp
    exact h.jump p hp z hz hc hzp o' ho'
  · rw [copiesAt_shift] at e
    obtain ⟨A', C', e1, e2, e3⟩ := List.map_eq_append_iff.1 e
    obtain ⟨a, B', e4, e5, e6⟩ := List.map_eq_cons_iff.1 e3
    rw [(Stack.phisOf_shift d f c).2] at hne
    rw [(Stack.phisOf_shift d f c).1]
    have hx : a.1 = x := congrArg Prod.fst e5
    have hv : Stack.shiftVal d a.2 = v := congrArg Prod.snd e5
    obtain ⟨k1, k2⟩ := h.edge p hp c hc A' x a.2 B' (by rw [e1, e4, ← hx]) (needed_shift hne) (fun o ho => hB (o.1, Stack.shiftVal d o.2) (by rw [← e6]; exact List.mem_map.2 ⟨o, ho, rfl⟩))
    refine ⟨k1, fun o ho => ?_⟩
    rw [← e2] at ho
    obtain ⟨o', ho', eo⟩ := List.mem_map.1 ho
    rw [← hv, place_shift, ← eo]
    exact k2 o' ho'
  · obtain ⟨o', ho', -, e2⟩ := back ho
    rw [e2] at e
    refine h.defined p hp o' ho' ?_
    cases e3 : o'.2 with
    | const k => rw [e3] at e; cases k <;> cases e
    | insn y => rw [e3] at e; cases e
    | undef => rfl
  · rw [(Stack.phisOf_shift d f c).1] at hx
    rw [show (Stack.shift d f).insn x = Stack.shiftInsn d (f.insn x) from rfl, shift_phi (phisOf_phi hx), List.map_map]
    exact h.once c hc x hx

/-! ## Regular choices -/

/-- Only one argument at most is used. -/
def OneArg (f : Fn) : Prop := ∃ a : Nat, ∀ b ∈ f.args, b ≠ a → f.users b = []

theorem one_filter {L : List Nat} (hn : L.Nodup) (a : Nat) : (L.filter (· == a)).length ≤ 1 := by
  rw [← List.countP_eq_length_filter]
  exact List.nodup_iff_count.1 hn a

theorem colored_assigned {s0 : Cg} {off0 : Int} {R : List Nat} {rg : Nat → Nat} {d : BitVec 16} {al : Allocated} {c m : RA.St} (h : Rounds s0 off0 R rg d al)
    (hg : Graph s0.f) (hconn : ∀ b ∈ R, Conn s0.f b) (hc : RA.coloring al.ra = .ok c) (hm : RA.coalescing (copiesOf al.s.f R) c = .ok m)
    (hfix : NotFixed (raOf R rg al.s) (copiesOf al.s.f R)) (hap : RA.Apart m) :
    ∃ reqs, PhiRecorded al.s.f R (dst al.s.f) (raOf R rg al.s) reqs ∧ Assigned (raOf R rg al.s) m reqs := by
  obtain ⟨l, s1, hl, hsg, hperm⟩ := h.last
  have hfin : ∀ v, ((raOf R rg al.s).cg v).fin = ((raOf R rg al.s).cg v).pos.allocated := fun _ => rfl
  obtain ⟨reqs, h1, h2, h3⟩ := analyse_phi (h.holds.liveOk (h.frame.graph hg)) (h.frame.graph hg) h.holds.ready.flow (by
    rw [posIn_raOf]
    exact h.holds.allocReady (fun b hb => h.frame.conn (hconn b hb))) hfin hl
  have hst := h.holds.start
  have hcol := RA.coloring_same hst h1 hsg hc
  have sp0 := RA.conflicts_same h1
  obtain ⟨dd, -⟩ := RA.colorAll_ok hc
  have fin2 : ∀ v, (c.cg v).fin = ((raOf R rg al.s).cg v).fin := fun v => ((dd.fin v).trans (hsg.fin v)).trans (sp0.fin v)
  have mm := coalescing_moves hm (fun p hp => by rw [fin2, fin2]; exact hfix p hp)
  have kept : ∀ v, ((raOf R rg al.s).cg v).fin = true → (m.cg v).pos = ((raOf R rg al.s).cg v).pos := by
    intro v hv
    rw [mm.kept v (by rw [fin2]; exact hv), hcol.2.1 v (by rw [← hfin]; exact hv)]
  refine ⟨reqs, h3, fun a b hab r h3 h4 => RA.apart_requested hst.regs h1 (fun x => ((mm.adj x).trans (dd.adj x)).trans (hsg.adj x)) kept hap hab h3 h4, kept, ?_⟩
  intro v h1 h2
  rw [mm.alloc] at h2
  obtain ⟨r, h3, h4⟩ := hcol.2.2.2 v h1 h2
  refine ⟨(m.cg v).pos.reg, RA.inReg_some.2 ⟨by rw [mm.alloc]; exact h2, ?_, rfl⟩, ?_⟩
  · rw [mm.spilled]; exact (RA.inReg_some.1 h3).2.1
  · rcases mm.reg v with e | e
    · rw [e, (RA.inReg_some.1 h3).2.2]; exact h4
    · exact e

/-- Nothing is on the stack in the end. -/
theorem no_slots {s t : Cg} {R : List Nat} {rg : Nat → Nat} {d : BitVec 16} {pos : Nat → VrPos} {regs : Reg → Nat} (h : Holds s R rg d 0) (hs : Seated s R pos) (hr : RegsAre s rg regs)
    (hg : Gone s R d pos regs t) (hno : ∀ b ∈ R, ∀ x ∈ s.f.body b, (s.f.insn x).op ≠ .alloc ∧ (s.f.insn x).op ≠ .allocarray) {y : Nat} (hy : Flatten.Names t.f R y) :
    (t.pos y).spilled = 0 ∧ (t.f.insn y).op ≠ .alloc ∧ (t.f.insn y).op ≠ .allocarray := by
  have flat : ∀ z, (pos z).spilled = 0 := fun z => by
    rw [hs.slots]
    apply Classical.byContradiction
    intro hz
    have := h.pos.neg z hz
    omega
  obtain ⟨b, hb, x, hx, hy⟩ := hy
  have hm := h.made hg hb hx
  rcases hy with rfl | hy
  · cases hm with
    | old ψ h1 h2 h3 h4 h5 h6 h6' h7 h8 h9 =>
      obtain ⟨c, hc, h1⟩ := h1
      rw [h3, h7]
      exact ⟨flat _, hno c hc _ h1⟩
    | copy p v w h1 h2 h3 h4 h5 h6 => rw [h3, h4]; exact ⟨flat _, by simp [mkAssign], by simp [mkAssign]⟩
  · obtain ⟨x0, z, h1, h2, rfl⟩ := hm.operands h hy
    have ha := h.arg hs hr hg h1 h2
    have key : ∀ o, o = Op.alloc ∨ o = Op.allocarray → (t.f.insn (ren s R pos regs z)).op ≠ o := fun o ho hop => by
      have e := ha.same (ho.elim (fun e => .inr (.inl (hop.trans e))) fun e => .inl (hop.trans e))
      rw [e, (ha.old e).1] at hop
      rcases h.shape.dom x0 h1 z h2 with k | ⟨i, hi, k⟩ | ⟨⟨c, hc, k⟩, -⟩
      · rw [k, h.fixed.1] at hop; rcases ho with rfl | rfl <;> cases hop
      · rw [k, h.fixed.2 i hi] at hop; rcases ho with rfl | rfl <;> cases hop
      · rcases ho with rfl | rfl
        · exact (hno c hc z k).1 hop
        · exact (hno c hc z k).2 hop
    refine ⟨?_, key _ (.inl rfl), key _ (.inr rfl)⟩
    apply Classical.byContradiction
    intro hsp
    have e := ha.same (.inr (.inr hsp))
    rw [e, (ha.old e).2] at hsp
    exact hsp (flat z)

/-- The instructions of the prepared function. -/
theorem Prepared.plain {f : Fn} {R : List Nat} {s t : Cg} {rn : Nat → Nat} {H N M K : Nat → List Nat} (hP : Prepared f R s t rn H N M K) (hr : Ready f R) (hS : Simple f R) {b x : Nat}
    (hb : b ∈ R) (hx : x ∈ s.f.body b) : (s.f.insn x).op ≠ .alloc ∧ (s.f.insn x).op ≠ .store ∧ (s.f.insn x).op ≠ .allocarray := by
  rcases hP.mem hb hx with ⟨hx, h1⟩ | ⟨-, -, k, c, t, b', e⟩
  · have hop : (s.f.insn x).op = (t.f.insn x).op := by rcases h1 with e | ⟨j, n, -, -, -, e⟩ <;> rw [e]; rfl
    rw [hop]
    cases kind hr hP.lowd hb hx with
    | plain h2 _ h3 => rw [h3]; exact ⟨(hS.var b hb x h2).1, (hS.var b hb x h2).2.2, hS.array b hb x h2⟩
    | call h2 h4 h3 => rw [h3]; dsimp only; rw [h4]; simp
    | fromReg i _ _ h3 => rw [h3]; simp [mkAssign]
    | toReg y v _ _ _ _ _ h3 => rw [h3]; simp [mkAssign]
  · rw [e]; simp [mkAssign]

theorem regular {f : Fn} {R : List Nat} {r : Result} (e : compile f R = .ok r) (hr : Ready f R) (hn : Neat f R) (hF : Fits f R r.depth) (hg : Graph f) (hconn : ∀ b ∈ R, Conn f b)
    (hS : Simple f R) (hone : OneArg f) (hphi : PhiSafe f R (own f)) (hoff : r.al.off = 0) :
    Regular f R r ∧ ∀ y, Flatten.Names r.out.f R y → (r.out.pos y).spilled = 0 ∧ (r.out.f.insn y).op ≠ .alloc ∧ (r.out.f.insn y).op ≠ .allocarray := by
  have ha : ∀ b ∈ R, ∀ x ∈ f.body b, (f.insn x).op = .allocarray → 0 < arrBytes (f.insn x) ∧ arrBytes (f.insn x) + 7 < 2 ^ 32 :=
    fun b hb x hx h => absurd h (hS.array b hb x hx)
  unfold compile at e
  obtain ⟨⟨s0, off0⟩, e1, e⟩ := Out.bind_eq_ok.1 e
  obtain ⟨al, e2, e⟩ := Out.bind_eq_ok.1 e
  obtain ⟨c, e3, e⟩ := Out.bind_eq_ok.1 e
  obtain ⟨m, e4, e⟩ := Out.bind_eq_ok.1 e
  obtain ⟨t', e5, e⟩ := Out.bind_eq_ok.1 e
  obtain ⟨bs, e6, e⟩ := Out.bind_eq_ok.1 e
  obtain ⟨code, e7, e⟩ := Out.bind_eq_ok.1 e
  cases e
  dsimp only [Result.depth] at *
  have hH := prepare_holds hr hn hF ha e1
  have hFr := prepare_frame hr hn hF ha e1
  have hRo := allocate_ok hr.nodup 6 s0 off0 al hH e2
  obtain ⟨rfl, t, rn, H, N, M, K, hP⟩ := prepared hr hn hS e1
  have hs : al.s = s0 := (allocate_le 6 s0 0 al e2).2 hoff
  have hP : Prepared f R al.s t rn H N M K := by rw [hs]; exact hP
  have hfix : NotFixed (raOf R (rgOf f) al.s) (copiesOf al.s.f R) := fun p hp ⟨h1, h2⟩ => by
    have h1 : (al.s.pos p.1).allocated = true := h1
    have h2 : (al.s.pos p.2).allocated = true := h2
    rcases hP.copies hr hF hS hp with ⟨-, h3⟩ | ⟨h3, -⟩
    · rw [h3] at h2; cases h2
    · rw [h3] at h1; cases h1
  have hap := apart_of_copies hRo (hFr.graph hg) e3 e4 hfix (fun p hp _ => by
    rcases hP.copies hr hF hS hp with ⟨h3, -⟩ | ⟨-, h3⟩
    · exact .inl h3
    · exact .inr h3)
  obtain ⟨hse, -⟩ := colored_ok hRo (hFr.graph hg) (fun b hb => hFr.conn (hconn b hb)) e3 e4 hfix hap
  obtain ⟨reqs, hrec, has⟩ := colored_assigned hRo (hFr.graph hg) (fun b hb => hFr.conn (hconn b hb)) e3 e4 hfix hap
  obtain ⟨a, hone⟩ := hone
  have hT := hP.tame hr (u := (· == a)) (fun b hb h => hone b hb (by simpa using h)) (one_filter hr.distinct a)
  have hAR := hRo.holds.allocReady (fun b hb => hRo.frame.conn (hFr.conn (hconn b hb)))
  have hloop : ∀ b ∈ R, al.s.f.entry ∉ al.s.f.succs b := fun b hb => by
    rw [hP.const.grown.succs, hP.lowd.succs, hP.const.grown.entry, hP.lowd.entry]
    exact hr.loop b hb
  refine ⟨⟨hap, tame_kept hRo.holds.ready.flow hloop hAR.entry hT _, copiesFit_shift ?_⟩, fun y hy => ?_⟩
  rotate_left
  · have hA := hRo.holds
    have hRA := regsAre (s := al.s) (f := f) (hFr.trans hRo.frame).sp
    have hG := hA.gone hr.nodup hse hRA e5
    rw [hoff] at hA
    exact no_slots hA hse hRA (by rw [hoff] at hG; exact hG) (fun b hb x hx => ⟨(hP.plain hr hS hb hx).1, (hP.plain hr hS hb hx).2.2⟩) hy
  rw [regPos_eq]
  refine copies_fit hRo.holds.ready.flow (s := raOf R (rgOf f) al.s) (dst := dst al.s.f) hloop (by rw [posIn_raOf]; exact hAR) hrec has (fun _ => rfl) (fun b hb x hx => ?_)
    (by rw [posIn_raOf]; exact hT) (fun b hb z hz hc _ y hy => ?_) (fun c hc x hx => ?_) (hP.safe hr hn hAR.front hphi)
  · exact ⟨(hP.plain hr hS hb hx).1, (hP.plain hr hS hb hx).2.1⟩
  · rw [posIn_raOf]
    exact hP.jumps hr hb hz hc hy
  · rw [posIn_raOf]
    have hxb : x ∈ al.s.f.body c := by rw [← phisOf_append al.s.f c]; exact List.mem_append_left _ hx
    refine ⟨?_, hse.all x ⟨c, hc, hxb⟩ (by unfold ops; rw [phisOf_phi hx]; rfl)⟩
    rw [hP.bodies hc] at hx
    have hxf : x ∈ f.body c := by rw [← phisOf_append f c]; exact List.mem_append_left _ hx
    rw [hP.pos (.inr (.inr ⟨c, hP.base.sub c hc, by rw [← phisOf_append t.f c, (hP.lowd.body c hc).1]; exact List.mem_append_left _ hx⟩))]
    exact (Loc.places_virt (hP.lowd.own x ⟨c, hr.blocks c hc, hxf⟩)).2

end Verif.Fit
