import Verif.Spec.Apart
import Verif.Pipe.GuardedKinds
/-!
# No phi is fed from a block with a division when control does not merge behind divisions
-/
namespace Verif.Pipe
open Verif Verif.IR Verif.Lift
open Verif.GenBB (zeroJump Blk PreInsn)
open Verif.Bpf (Slot Instr decode flow Apart divides Formed Closed Kind Typed FrameIn SlotReach ReadsStale)
open Verif.Stack (Form)
open Verif.Flatten (cut)

theorem term_zero {P : List Slot} (hl : Bpf.Legal P) {p : Nat} (h : Bpf.isTerminator (P.map zeroJump) p) : Bpf.isTerminator P p := by
  obtain ⟨s, i, h1, h2, h3⟩ := h
  obtain ⟨s', h1', rfl⟩ := GenBB.get_map h1
  rcases decode_zeroJump hl h1' with e | ⟨e, w, c, d, src, e'⟩
  · exact ⟨s', i, h1', e ▸ h2, h3⟩
  · exact ⟨s', _, h1', e', .inr rfl⟩

theorem term_zero' {P : List Slot} (hl : Bpf.Legal P) {p : Nat} (h : Bpf.isTerminator P p) : Bpf.isTerminator (P.map zeroJump) p := by
  obtain ⟨s, i, h1, h2, h3⟩ := h
  have h1' : (P.map zeroJump)[p]? = some (zeroJump s) := by simp [h1]
  rcases decode_zeroJump hl h1 with e | ⟨e, -⟩
  · exact ⟨_, i, h1', e.trans h2, h3⟩
  · exact ⟨_, _, h1', e, .inr rfl⟩

theorem apart_zero {P : List Slot} (hl : Bpf.Legal P) (h : Apart P) : Apart (P.map zeroJump) := by
  intro p s hs hd q hq hn t ht q' ht'
  obtain ⟨s', h1, rfl⟩ := GenBB.get_map hs
  have hd' : divides (decode s') = true := by
    rcases decode_zeroJump hl h1 with e | ⟨e, -⟩
    · rwa [e] at hd
    · rw [e] at hd; cases hd
  exact h p s' h1 hd' q hq (fun j h1 h2 h3 => hn j h1 h2 (term_zero' hl h3)) t ((flow_zero hl q t).1 ht) q' ((flow_zero hl q' t).1 ht')

/-- Each instruction of a block is made from one of its slots. -/
theorem chain_op {P : List Slot} {C : List Blk} (hcl : ∀ sl ∈ P, ∀ i, decode sl = some i → Clean i) {ins : Nat → Insn} {stop p : Nat} {qs : List PreInsn} (hc : Chain P stop p qs) :
    ∀ {as : List Act} {m m1 : M} {xs : List Nat}, Planned C qs as → Tr ins as m xs m1 → ∀ x ∈ xs, ∃ q s i, p ≤ q ∧ q < stop ∧ P[q]? = some s ∧ decode s = some i ∧ opOf i = some (ins x).op := by
  have one : ∀ {defd : Nat → Bool} {q : PreInsn} {i : Instr} {m m1 : M} {a : Act} {xs : List Nat}, planI C defd q i = .ok a → Clean i → (∀ f, i = .call f → q.slot.src = 0 ∧ f = q.slot.imm) →
      Tr1 ins a m xs m1 → ∀ x ∈ xs, opOf i = some (ins x).op := by
    intro defd q i m m1 a xs hp hi hs h x hx
    cases h with
    | mov => cases hx
    | emit _ _ e _ =>
      rw [List.mem_singleton] at hx
      subst hx
      have := planI_opOf hp hi hs
      rw [e]
      exact this
  induction hc with
  | nil =>
    intro as m m1 xs hp h x hx
    cases hp; cases h
    cases hx
  | @one p sl i x qs h1 h2 h3 h4 h5 ih =>
    intro as m m1 xs hp h y hy
    cases hp with
    | @cons _ _ a as defd hpl _ hps =>
    cases h with
    | @cons _ _ _ ys m2 zs _ h0 h1' =>
      rw [plan_decode C defd _ h3] at hpl
      rcases List.mem_append.1 hy with hy | hy
      · exact ⟨p, sl, i, Nat.le_refl _, h1, h2, h3, one hpl (hcl sl (List.mem_of_getElem? h2) i h3) (fun f e => by subst e; exact decode_call h3) h0 y hy⟩
      · obtain ⟨q, s, i, k1, k2⟩ := ih hps h1' y hy
        exact ⟨q, s, i, by omega, k2⟩
  | @wide p sl s2 d k qs h1 h2 h2' h3 h5 ih =>
    intro as m m1 xs hp h y hy
    cases hp with
    | @cons _ _ a as defd hpl _ hps =>
    cases h with
    | @cons _ _ _ ys m2 zs _ h0 h1' =>
      rw [plan_decode C defd _ h3] at hpl
      rcases List.mem_append.1 hy with hy | hy
      · exact ⟨p, sl, _, Nat.le_refl _, by omega, h2, h3, one hpl (hcl sl (List.mem_of_getElem? h2) _ h3) (fun f e => by cases e) h0 y hy⟩
      · obtain ⟨q, s, i, k1, k2⟩ := ih hps h1' y hy
        exact ⟨q, s, i, by omega, k2⟩

theorem opOf_phi {i : Instr} : opOf i ≠ some .phi := by
  intro h
  cases i with
  | alu w op d src => cases op <;> simp [opOf, irAlu] at h
  | jcc w c d src off => cases c <;> simp [opOf, irCond] at h
  | swap be d w => cases be <;> simp [opOf] at h
  | _ => simp [opOf] at h

section
variable {P : List Slot} {C : List Blk} {g : Gh} {s : LSt}

theorem code_op (h : Lifted P C g s) (hcl : ∀ sl ∈ P, ∀ i, decode sl = some i → Clean i) {b x : Nat} (hb : Reach C b) (hx : x ∈ g.code b) :
    ∃ k q sl i, C[b]? = some k ∧ k.start ≤ q ∧ q < k.stop ∧ P[q]? = some sl ∧ decode sl = some i ∧ opOf i = some (s.insn x).op := by
  obtain ⟨k, hk⟩ : ∃ k, C[b]? = some k := ⟨_, List.getElem?_eq_getElem (Reach.lt h.graph h.pos hb)⟩
  have hp := h.fin.gi.fil b (h.fin.filled hb)
  have hi : insnsOf C b = k.insns := by simp only [insnsOf, hk]
  rw [hi] at hp
  obtain ⟨q, sl, i, h1⟩ := chain_op hcl (h.graph.chain b k hk) hp (h.fin.gi.inv.tr b) x hx
  exact ⟨k, q, sl, i, hk, h1⟩

/-- A block that a block with a division leads to has no other predecessors. -/
theorem alone (h : Lifted P C g s) (hcl : ∀ sl ∈ P, ∀ i, decode sl = some i → Clean i) (hA : Apart P) {b c d : Nat} (hd : d ∈ s.body b) (ho : (s.insn d).op = .div) (hb : b ∈ predsOf C c) :
    predsOf C c = [b] := by
  have hr := (h.mem hd).1
  rw [h.fin.gi.inv.body] at hd
  rcases List.mem_append.1 hd with hp | hc
  · have := h.books.phi d (h.fin.gi.inv.phiR b d hp).2
    rw [this] at ho
    cases ho
  · obtain ⟨k, q, sl, i, hk, h1, h2, h3, h4, h5⟩ := code_op h hcl hr hc
    rw [ho] at h5
    obtain ⟨w, dd, src, rfl⟩ := opOf_div h5
    obtain ⟨kc, hkc, hbc⟩ := mem_preds hb
    have key : ∀ b' ∈ predsOf C c, b' = b := by
      intro b' hb'
      obtain ⟨_, e, hb''⟩ := mem_preds hb'
      rw [hkc] at e; cases e
      obtain ⟨k', hk'⟩ := h.graph.lt_pred hkc hb''
      obtain ⟨a1, a2⟩ := edge_flow h hk hkc ((h.fin.edge b c).1 hb)
      obtain ⟨b1, b2⟩ := edge_flow h hk' hkc ((h.fin.edge b' c).1 hb')
      have e := hA q sl h3 (by rw [h4]; rfl) (k.stop - 1) (by omega) (fun j j1 j2 => h.graph.inner b k hk j (by omega) (by omega)) _ a2 _ b2
      rcases Nat.lt_trichotomy b b' with l | l | l
      · have := h.graph.pw b b' k k' hk hk' l; omega
      · exact l.symm
      · have := h.graph.pw b' b k' k hk' hk l; omega
    have hn : (predsOf C c).Nodup := by
      rw [preds_get hkc]
      exact (h.graph.edge b c k kc hk hkc).2.2.2.1
    cases e : predsOf C c with
    | nil => rw [e] at hb; cases hb
    | cons y l =>
      rw [e] at hn key
      have hy := key y (by simp)
      cases l with
      | nil => rw [hy]
      | cons z l =>
        have hz := key z (by simp)
        rw [hy, hz] at hn
        simp at hn

/-- A phi that is fed from a block with a division has no other operands. -/
theorem phi_alone (h : Lifted P C g s) (hcl : ∀ sl ∈ P, ∀ i, decode sl = some i → Clean i) (hA : Apart P) {b c d x : Nat} (hd : d ∈ s.body b) (ho : (s.insn d).op = .div) (hx : x ∈ s.body c)
    (hp : (s.insn x).op = .phi) (hm : b ∈ (s.insn x).phi.map Prod.fst) : (s.insn x).phi.length = 1 := by
  have hr := (h.mem hx).1
  have hx' := hx
  rw [h.fin.gi.inv.body] at hx'
  rcases List.mem_append.1 hx' with hx' | hx'
  · obtain ⟨c1, -⟩ := h.fin.complete hr hx'
    rw [c1] at hm
    have := alone h hcl hA hd ho hm
    rw [this] at c1
    simpa using congrArg List.length c1
  · obtain ⟨k, q, sl, i, -, -, -, -, -, h5⟩ := code_op h hcl hr hx'
    rw [hp] at h5
    exact absurd h5 opOf_phi
end

/-- No phi of the function that `div_by_zero` gets is fed from a block with a division. -/
theorem apart_noLabels {P : List Slot} (hP : Fair P) (hA : Apart P) {n fuel : Nat} {check : Bool} {m : Fn} {R : List Nat} (e : early n fuel check P = .ok (m, R)) : NoLabels R m := by
  unfold early at e
  obtain ⟨⟨f1, R1⟩, e1, e⟩ := Out.bind_eq_ok.1 e
  unfold lift at e1
  obtain ⟨f, hf, e1⟩ := Out.bind_eq_ok.1 e1
  obtain ⟨g', h1, -, h3⟩ := lift_code hP.shaped hP.closed hP.len hP.usual hf
  obtain ⟨k, R', hl, hk⟩ := post_of h1 h3
  have e1' := post_mono e1 (show fuel ≤ fuel + k by omega)
  rw [hk _ (by omega)] at e1'
  cases e1'
  unfold pass at e
  obtain ⟨m1, a1, e⟩ := Out.bind_eq_ok.1 e
  dsimp only at a1
  have hi : Phi.Inv R1 (withSuccs f g') := ⟨h3.ok, h3.ssa, fun b hb => ⟨(hl.mem b).1 hb, h3.reach ((hl.mem b).1 hb)⟩⟩
  obtain ⟨m', b1, c1, c2⟩ := Phi.removeTrivial_ok (Dead.total (withSuccs f g') R1 + 1) (withSuccs f g') hi (Nat.lt_succ_self _)
  have a1' := Phi.removeTrivial_mono _ _ _ a1 (fuel + (Dead.total (withSuccs f g') R1 + 1)) (by omega)
  rw [Phi.removeTrivial_mono _ _ _ b1 _ (by omega)] at a1'
  cases a1'
  obtain ⟨k2, R2', l2, _, b2⟩ := (h3.pruned c1).post
  have e' := post_mono e (show fuel ≤ fuel + k2 by omega)
  rw [b2 _ (by omega)] at e'
  cases e'
  obtain ⟨C, g, s, h, hfs⟩ := lifted_parts hP.shaped hP.len hf
  intro b hb ⟨d, hd, hdo⟩ x hx hxo o hm ho
  obtain ⟨D, hD, -⟩ := c1.body
  obtain ⟨c, hc, hxc⟩ := hx
  have hin : InBody m x := ⟨c, hc, hxc⟩
  have hdf : d ∈ s.body b := by
    rw [hD, List.mem_filter] at hd
    rw [hfs] at hd
    exact hd.1
  have hxf : x ∈ s.body c := by
    rw [hD, List.mem_filter] at hxc
    rw [hfs] at hxc
    exact hxc.1
  have hins : ∀ y, (withSuccs f g').insn y = s.insn y := fun y => by rw [hfs]; rfl
  obtain ⟨φ, e1, -⟩ := c1.traced x hin
  rw [hins] at e1
  have ho1 : (s.insn d).op = .div := by rw [← hins, ← c1.op]; exact hdo
  have ho2 : (s.insn x).op = .phi := by rw [← hins, ← c1.op]; exact hxo
  have e2 : (m.insn x).phi = (s.insn x).phi.map (fun o => (o.1, φ o.2)) := by rw [e1]; simp [Edit.mapOps, ho2]
  have h2 : b ∈ (s.insn x).phi.map Prod.fst := by
    rw [e2, List.mem_map] at hm
    obtain ⟨o', h4, rfl⟩ := hm
    rw [← ho]
    exact List.mem_map.2 ⟨o', h4, rfl⟩
  have h5 := phi_alone h (clean_zero hP.shaped.legal hP.clean) (apart_zero hP.shaped.legal hA) hdf ho1 hxf ho2 h2
  have h6 : (m.insn x).phi.length = 1 := by rw [e2, List.length_map]; exact h5
  have hcR : c ∈ R1 := (hl.mem c).2 (by rw [← c1.allBbs]; exact hc)
  have hd' := c2 c hcR x hxc hxo
  match hq : (m.insn x).phi with
  | [] => rw [hq] at h6; cases h6
  | [(p, w)] =>
    rw [hq] at hd'
    cases w with
    | const => simp [Phi.scan] at hd'
    | undef => simp [Phi.scan] at hd'
    | insn y =>
      simp only [Phi.scan] at hd'
      split at hd'
      · cases hd'
      · simp at hd'
  | _ :: _ :: _ => rw [hq] at h6; simp at h6

theorem apart_run {P : List Slot} (hP : Fair P) (hA : Apart P) {n fuel : Nat} {check : Bool} {R : GuardedRun} (e : autorunGuards n fuel check P = .ok R) : NoLabels R.reach R.lifted := by
  unfold autorunGuards at e
  obtain ⟨⟨f1, R1⟩, e1, e⟩ := Out.bind_eq_ok.1 e
  obtain ⟨⟨f2, R2⟩, e2, e⟩ := Out.bind_eq_ok.1 e
  obtain ⟨⟨f3, R3⟩, e3, e⟩ := Out.bind_eq_ok.1 e
  obtain ⟨r, e4, e⟩ := Out.bind_eq_ok.1 e
  cases e
  exact apart_noLabels hP hA e1

/-- **C80** for runs with `div_by_zero`, with conditions on the program only: it is accepted by a loader, its registers have kinds, and control does not merge behind divisions (`C70_violated_phi` is
about a program where it does). -/
theorem C80_apart_partial {P : List Slot} (hP : Fair P) {T : Nat → Nat → Kind} (hT : Typed P T) (hA : Apart P) {n fuel : Nat} {check : Bool} {R : GuardedRun}
    (e : autorunGuards n fuel check P = .ok R) (hlen : R.res.code.length ≤ 32768) : Formed R.res.code ∧ Closed R.res.code :=
  C80_typed_guarded_partial hP hT e (apart_run hP hA e) hlen

/-- **C81** for runs with `div_by_zero`, with conditions on the program only. -/
theorem C81_apart_partial {P : List Slot} (hP : Fair P) {T : Nat → Nat → Kind} (hT : Typed P T) (hA : Apart P) {n fuel : Nat} {check : Bool} {R : GuardedRun}
    (e : autorunGuards n fuel check P = .ok R) (hlen : R.res.code.length ≤ 32768) : ∀ p < R.res.code.length, SlotReach R.res.code p :=
  C81_typed_guarded_partial hP hT e (apart_run hP hA e) hlen

/-- **C76** for runs with `div_by_zero`, from the program alone: if moreover all its registers exist, it has no unknown instructions and reads no register before it is set, then a run ends with
bytecode or an error, with the checker on or off. -/
theorem C76_apart_partial {P : List Slot} (hP : Fair P) {T : Nat → Nat → Kind} (hT : Typed P T) (hA : Apart P) (hr : Bpf.KnownRegs P) (hs : ¬ Bpf.Unknown P) (hi : ¬ Bpf.ReadsUnset P) :
    ∃ n0, ∀ n, n0 ≤ n → ∃ k, ∀ fuel, k ≤ fuel → ∀ check, autorunGuards n fuel check P = .err ∨ ∃ A, autorunGuards n fuel check P = .ok A := by
  obtain ⟨n0, h0⟩ := C61_exact hP.shaped hP.closed hP.len hr (clean_six hP.clean)
  refine ⟨n0, fun n hn => ?_⟩
  obtain ⟨f, hf⟩ := (h0 n hn).1.2 ⟨hs, hi⟩
  obtain ⟨m, R, k, h1, h2⟩ := C76_typed_guarded_partial hP hT hf
  exact h2 (apart_noLabels hP hA (h1 k (Nat.le_refl _) true))

/-- **C74** with the conditions on frame pointer and divisions on the program: the two programs do the same, or the given one gets to a division by a register that holds zero and the other
returns 1. -/
theorem C74_apart_partial {P : List Slot} (h : Fair P) {T : Nat → Nat → Kind} (hT : Typed P T) (hA : Apart P) (hno : ¬ ReadsStale P) {n fuel : Nat} {check : Bool} {A : GuardedRun}
    (e : autorunGuards n fuel check P = .ok A) (hoff : A.res.al.off = 0) (hone : Fit.OneArg A.fn) (hphi : Loc.Smooth A.fn A.blocks (Lower.own A.fn))
    (hp : ∀ b ∈ A.res.blocks, ∀ i ∈ b.insns, Emit.Plain i) (hout : A.res.code.length ≤ 32768) (M N : Bpf.World) (hM : Alike M N) (σ μ : Bpf.St) (hs : StartAlike σ μ) :
    Rewrites M P σ N A.res.code μ (fun σ μ => μ.mem = σ.mem ∧ μ.trace.map cut = σ.trace.map cut) ∨ (ZeroDivides M P σ ∧ ∃ m μ', Bpf.run N A.res.code m 0 μ = .done 1 μ') :=
  C74_typed_partial h hT hno e (apart_run h hA e) hoff hone hphi hp hout M N hM σ μ hs

/-- **C70** with the conditions on frame pointer and divisions on the program. -/
theorem C70_apart_partial {P : List Slot} (h : Fair P) {T : Nat → Nat → Kind} (hT : Typed P T) (hA : Apart P) (hB : FrameIn InStack P) {n fuel : Nat} {check : Bool} {A : GuardedRun}
    (e : autorunGuards n fuel check P = .ok A) (hdep : -32256 ≤ A.res.depth.toInt) (hreg : Compile.Regular A.fn A.blocks A.res) (hoff : -2 ^ 31 ≤ A.res.al.off)
    (hp : ∀ b ∈ A.res.blocks, ∀ i ∈ b.insns, Emit.Plain i) (hout : A.res.code.length ≤ 32768) (M N : Bpf.World) (W : IR.World) (hM : Lift.Agree M W) (p : BitVec 64)
    (hN : Flatten.Serves A.res.out.f A.blocks A.res.out.pos p N W) (hwid : ∀ a, InBody A.res.al.s.f a → A.res.al.s.f.insn a = Edit.mkAlloc .t64 → W.wid a = 8) (σ μ : Bpf.St)
    (hb : Enters p (A.res.depth.signExtend 64) (Flatten.InFrame A.res.out.f A.blocks A.res.out.pos p) σ μ)
    (hs : Flatten.Sane W A.res.out.f A.blocks A.res.out.pos p (Compile.startAt A.res.out.f A.blocks A.res.out.pos p (initial σ) μ)) :
    Rewrites M P σ N A.res.code μ (SameOutside (Flatten.InFrame A.res.out.f A.blocks A.res.out.pos p)) ∨ (ZeroDivides M P σ ∧ ∃ m μ', Bpf.run N A.res.code m 0 μ = .done 1 μ') :=
  C70_typed_partial h hT hB e (apart_run h hA e) hdep hreg hoff hp hout M N W hM p hN hwid σ μ hb hs

/-! ## The hypotheses hold -/

/-- A test for `Apart`, which looks at all slots from a division to the next jump or exit. -/
def apartB (P : List Slot) : Bool := (List.range P.length).all fun p => !((P[p]?.map fun s => divides (decode s)).getD false) || (List.range P.length).all fun q => !decide (p ≤ q) ||
  (List.range q).any (fun j => decide (p ≤ j) && (P[j]?.bind fun s => (decode s).map fun i => i == .exit || (Bpf.jumpOffset i).isSome).getD false) ||
  (flow P q).all fun t => (List.range P.length).all fun q' => !decide (t ∈ flow P q') || decide (q' = q)

theorem flow_lt {P : List Slot} {q : Nat} {t : Int} (h : t ∈ flow P q) : q ∈ List.range P.length := by
  rw [List.mem_range]
  apply Classical.byContradiction
  intro hq
  rw [Bpf.flow, List.getElem?_eq_none (by omega)] at h
  cases h

theorem apart_of_check {P : List Slot} (h : apartB P = true) : Apart P := by
  intro p s hs hd q hq hn t ht q' ht'
  have h1 := List.all_eq_true.1 h p (List.mem_range.2 (List.getElem?_eq_some_iff.1 hs).1)
  rw [hs] at h1
  simp only [Option.map_some, Option.getD_some, hd, Bool.not_true, Bool.false_or] at h1
  have h2 := List.all_eq_true.1 h1 q (flow_lt ht)
  rw [decide_eq_true hq, Bool.not_true, Bool.false_or, Bool.or_eq_true] at h2
  rcases h2 with h2 | h2
  · obtain ⟨j, hj, h3⟩ := List.any_eq_true.1 h2
    rw [Bool.and_eq_true, decide_eq_true_eq] at h3
    obtain ⟨h3, h4⟩ := h3
    refine absurd ?_ (hn j h3 (List.mem_range.1 hj))
    cases e : P[j]? with
    | none => rw [e] at h4; cases h4
    | some sj =>
      rw [e, Option.bind_some] at h4
      cases e' : decode sj with
      | none => rw [e'] at h4; cases h4
      | some i =>
        rw [e'] at h4
        simp only [Option.map_some, Option.getD_some, Bool.or_eq_true, beq_iff_eq] at h4
        exact ⟨sj, i, e, e', h4⟩
  · have h3 := List.all_eq_true.1 (List.all_eq_true.1 h2 t ht) q' (flow_lt ht')
    rw [decide_eq_true ht', Bool.not_true, Bool.false_or, decide_eq_true_eq] at h3
    exact h3

/-- `if r1 == 0 goto +4; r0 = 100; r0 += r1; r0 /= r1; exit; r0 = 0; exit`: a division on one of two paths. -/
def exGuarded : List Slot := [⟨0x15, 1, 0, 4, 0⟩, ⟨0xb7, 0, 0, 0, 100⟩, ⟨0x0f, 0, 1, 0, 0⟩, ⟨0x3f, 0, 1, 0, 0⟩, ⟨0x95, 0, 0, 0, 0⟩, ⟨0xb7, 0, 0, 0, 0⟩, ⟨0x95, 0, 0, 0, 0⟩]

/-- The program of `C70_violated_phi` is no such program. -/
theorem exMerge_apart : ¬ Apart exMerge := by
  intro h
  have := h 4 _ rfl (by decide +kernel) 4 (Nat.le_refl _) (fun j h1 h2 => by omega) 5 (by decide +kernel) 1 (by decide +kernel)
  cases this

example : ∀ P ∈ [exStackDiv, exOver, exDivide, exGuarded], Apart P := by
  have h : ∀ P ∈ [exStackDiv, exOver, exDivide, exGuarded], apartB P = true := by decide +kernel
  exact fun P hP => apart_of_check (h P hP)

/-- From the program alone: runs with `div_by_zero` on these programs never crash. -/
example : (∃ n0, ∀ n, n0 ≤ n → ∃ k, ∀ fuel, k ≤ fuel → ∀ check, autorunGuards n fuel check exStackDiv = .err ∨ ∃ A, autorunGuards n fuel check exStackDiv = .ok A) ∧
    (∃ n0, ∀ n, n0 ≤ n → ∃ k, ∀ fuel, k ≤ fuel → ∀ check, autorunGuards n fuel check exGuarded = .err ∨ ∃ A, autorunGuards n fuel check exGuarded = .ok A) :=
  ⟨C76_apart_partial exStackDiv_typed.1 exStackDiv_typed.2 (apart_of_check (by decide +kernel)) (known_of_check (by decide +kernel)) (unknown_of_check (by decide +kernel))
    (init_of_check (K := [[1, 10], [1, 10], [1, 2, 10], [1, 2, 10], [3, 10], [0, 3], [0]]) (by decide +kernel)),
   C76_apart_partial (fair_of_check (by decide +kernel)) (typed_of_check (K := []) (by decide +kernel)) (apart_of_check (by decide +kernel)) (known_of_check (by decide +kernel))
    (unknown_of_check (by decide +kernel)) (init_of_check (K := [[1], [1], [0, 1], [0, 1], [0], [], [0]]) (by decide +kernel))⟩

example : ∃ A, autorunGuards 100 100 true exGuarded = .ok A ∧ Formed A.res.code ∧ Closed A.res.code ∧ (∀ p < A.res.code.length, SlotReach A.res.code p) ∧ 8 < A.res.code.length := by
  have h : Cg.onOk (autorunGuards 100 100 true exGuarded) (fun A => decide (A.res.code.length ≤ 32768) && decide (8 < A.res.code.length)) = true := by decide +kernel
  obtain ⟨A, e, h⟩ := Cg.of_onOk h
  simp only [Bool.and_eq_true, decide_eq_true_eq] at h
  have h1 : Fair exGuarded := fair_of_check (by decide +kernel)
  have h2 : Typed exGuarded (kindsOf []) := typed_of_check (by decide +kernel)
  have h3 : Apart exGuarded := apart_of_check (by decide +kernel)
  have k := C80_apart_partial h1 h2 h3 e h.1
  exact ⟨A, e, k.1, k.2, C81_apart_partial h1 h2 h3 e h.1, h.2⟩

/-- On the same machine and from any state. -/
example : ∃ A, autorunGuards 100 100 true exOver = .ok A ∧ ∀ σ,
    Rewrites Flatten.exM exOver σ Flatten.exM A.res.code σ (fun σ μ => μ.mem = σ.mem ∧ μ.trace.map cut = σ.trace.map cut) ∨
    (ZeroDivides Flatten.exM exOver σ ∧ ∃ m μ', Bpf.run Flatten.exM A.res.code m 0 σ = .done 1 μ') := by
  have h : Cg.onOk (autorunGuards 100 100 true exOver) (fun A => fitB A.toRun) = true := by decide +kernel
  obtain ⟨A, e, h⟩ := Cg.of_onOk h
  simp only [fitB, Bool.and_eq_true, decide_eq_true_eq] at h
  obtain ⟨⟨⟨⟨⟨h1, h2⟩, h3⟩, h4⟩, h5⟩, h6⟩ := h
  exact ⟨A, e, fun σ => C74_apart_partial (fair_of_check (by decide +kernel)) (typed_of_check (K := []) (by decide +kernel)) (apart_of_check (by decide +kernel))
    (stale_of_check (K := [[], [], [], [], []]) (by decide +kernel)) e h1 (Fit.one_of_check h3) (Fit.smooth_of_check h4)
    (fun b hb i hi => Emit.plain_of_check (List.all_eq_true.1 (List.all_eq_true.1 h5 b hb) i hi)) h6 _ _ exM_alike σ σ ⟨rfl, fun _ _ _ => rfl, rfl, rfl⟩⟩

end Verif.Pipe
