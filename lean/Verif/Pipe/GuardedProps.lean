import Verif.Pipe.GuardedLoop
import Verif.Pipe.Examples
/-!
# C70: a run with guarded divisions, from bytecode to bytecode
-/
namespace Verif.Pipe
open Verif Verif.IR
open Verif.Bpf (Slot Instr decode WellShaped Closed)
open Verif.Flatten (graphOf InFrame Serves Sane cut)
open Verif.Compile (startAt Result Regular)
open Verif.Stack (Form prep)
open Verif.Lift (Clean)

/-- No phi has a block with a division as a label: where control comes from such a block, values are not merged. -/
def NoLabels (R : List Nat) (f : Fn) : Prop := ∀ b ∈ R, (∃ d ∈ f.body b, (f.insn d).op = .div) → ∀ x, InBody f x → (f.insn x).op = .phi → ∀ o ∈ (f.insn x).phi, o.1 ≠ b

variable {f : Fn} {R : List Nat}

theorem Code.noPhisBehind (h : Code f) (hl : LaidOut f R) (hn : NoLabels R f) : DivZero.NoPhisBehind R f := by
  intro b hb hd t ht
  have hbm := (hl.mem b).1 hb
  have htm := (h.graph.succs b hbm).2 t ht
  cases hp : phisOf f t with
  | nil => rfl
  | cons x xs =>
    exfalso
    have hx : x ∈ phisOf f t := by rw [hp]; exact List.mem_cons_self ..
    have hxb : x ∈ f.body t := List.takeWhile_subset _ hx
    have hxo : (f.insn x).op = .phi := by
      have : phisOf f t = (f.body t).takeWhile fun x => (f.insn x).op == .phi := rfl
      rw [this] at hp
      cases hbd : f.body t with
      | nil => rw [hbd] at hp; cases hp
      | cons y ys =>
        rw [hbd, List.takeWhile_cons] at hp
        split at hp
        · rename_i hy
          cases hp
          simpa using hy
        · cases hp
    obtain ⟨w, hw⟩ := h.reach hbm
    have he : Edge f b t := by
      cases h.route b hbm with
      | fall c h1 h2 => rw [h2] at ht; exact .fall (by rw [h2, List.mem_singleton.1 ht])
      | ja x pre h1 h2 h3 => rw [h3] at ht; exact .ja x (by rw [h1]; simp) h2 (List.mem_singleton.1 ht).symm
      | cond x pre h1 h2 h3 => rw [h3] at ht; exact .cond x (by rw [h1]; simp) h2 (by simpa [eq_comm] using ht)
      | ret x pre h1 h2 h3 => rw [h3] at ht; cases ht
    obtain ⟨v, hv⟩ := h.ssa.phiAll t x hxb hxo b w hw he
    exact hn b hb hd x ⟨t, htm, hxb⟩ hxo _ hv rfl

/-- The passes succeed with enough fuel; if they do with less, the result is the same. -/
theorem guardPasses_code (h : Code f) (h6 : NoPrintk f) (hl : LaidOut f R) (hn : NoLabels R f) : ∃ g k u R', DivZero.divByZero R f = .ok g ∧ Guardable g ∧
    (∀ fuel, k ≤ fuel → ∀ check, guardPasses fuel check (f, R) = .ok (u, R')) ∧ (∀ fuel check s, guardPasses fuel check (f, R) = .ok s → s = (u, R')) ∧
    Code u ∧ LaidOut u R' ∧ NoPrintk u ∧ u.sp = f.sp ∧ u.args = f.args ∧ (∀ W σ, Preserves W (noThrows g) u σ) ∧ Checked f g ∧ ∃ R1, Dead.Cut R1 (noThrows g) u := by
  have hin : DivZero.Input R f := ⟨h.shape, hl.nodup, fun b hb => (hl.mem b).1 hb⟩
  obtain ⟨g, hg⟩ := DivZero.divByZero_ok hin fun x hx ho => (h.insn x hx).chk.arity 2 (by rw [ho]; rfl)
  have hdl : ∀ d ∈ DivZero.divs R f, Unlabelled f d := by
    intro d hd
    obtain ⟨b, hb, hm, ho⟩ := DivZero.mem_divs.1 hd
    have := h.shape.tidy.parent b ((hl.mem b).1 hb) d hm
    unfold Unlabelled
    rw [this]
    exact hn b hb ⟨d, hm, ho⟩
  obtain ⟨hG, s1, s2, s3, s4⟩ := checkAll_code _ h.guardable (DivZero.divs_nodup hin) (DivZero.divs_in hin) hdl hg
  obtain ⟨k1, R1, l1, p1⟩ := hG.post
  have hR1 : ∀ b ∈ R1, b ∈ g.allBbs := fun b hb => (l1.mem b).1 hb
  obtain ⟨k2, u, e2, h2⟩ := optimizeIr_code hG.code l1
  have hu := hG.code.cut h2
  obtain ⟨k3, R3, l3, _, p3⟩ := hu.post
  have h6g : NoPrintk (noThrows g) := fun x hx ho => by
    have ho' := (noThrows_op (f := g) (x := x) (o := .call) (by simp) (by simp)).1 ho
    have := s3 h6 x hx ho'
    rcases noThrows_cases g x with ⟨e, _⟩ | ⟨e, _, _⟩
    · rw [e]; exact this
    · rw [e]; exact this
  refine ⟨g, k1 + k2 + k3, u, R3, hg, hG, fun fuel hf check => ?_, fun fuel check s e => ?_, hu, l3, (Shrunk.cut h2).noPrintk h6g, h2.sp.trans s1, h2.args.trans s2, fun W σ => h2.pres W σ, s4, R1, h2⟩
  · have q1 := p1 fuel (by omega) check
    unfold guardPasses pass
    dsimp only
    rw [hg, Out.ok_bind, q1.1, Out.ok_bind]
    dsimp only
    rw [hG.noEcall hR1, Out.ok_bind, q1.1, Out.ok_bind]
    dsimp only
    rw [translate_same g (fun b => l1.mem b), Out.ok_bind, q1.2, Out.ok_bind]
    dsimp only
    rw [e2 fuel (by omega), Out.ok_bind]
    exact p3 fuel (by omega) check
  · have det : ∀ {h h' : Fn} {R R' : List Nat} {k : Nat}, (∀ fuel, k ≤ fuel → ∀ check, post fuel check h = .ok (h', R')) → post fuel check h = .ok s → s = (h', R') := by
      intro h h' R R' k p e
      have := post_mono e (show fuel ≤ fuel + k by omega)
      rw [p _ (by omega)] at this
      exact (Out.ok.inj this).symm
    unfold guardPasses pass at e
    dsimp only at e
    obtain ⟨t1, e1, e⟩ := Out.bind_eq_ok.1 e
    rw [hg, Out.ok_bind] at e1
    have d1 : t1 = (g, R1) := by
      have := post_mono e1 (show fuel ≤ fuel + k1 by omega)
      rw [(p1 _ (by omega) check).1] at this
      exact (Out.ok.inj this).symm
    subst d1
    dsimp only at e
    obtain ⟨t2, e2', e⟩ := Out.bind_eq_ok.1 e
    rw [hG.noEcall hR1, Out.ok_bind, e1] at e2'
    cases e2'
    dsimp only at e
    obtain ⟨t3, e3, e⟩ := Out.bind_eq_ok.1 e
    rw [translate_same g (fun b => l1.mem b), Out.ok_bind] at e3
    have d3 : t3 = (noThrows g, R1) := by
      have := post_mono e3 (show fuel ≤ fuel + k1 by omega)
      rw [(p1 _ (by omega) check).2] at this
      exact (Out.ok.inj this).symm
    subst d3
    dsimp only at e
    obtain ⟨t4, e4, e⟩ := Out.bind_eq_ok.1 e
    unfold optimizeIr at e4
    obtain ⟨t5, e5, e6⟩ := Out.bind_eq_ok.1 e4
    have d4 : t4 = u := by
      have := e2 (fuel + k2) (by omega)
      unfold optimizeIr at this
      rw [Dead.removeNoUser_mono _ _ _ e5 _ (by omega), Out.ok_bind, e6] at this
      exact Out.ok.inj this
    subst d4
    exact det (R := R) p3 e

theorem early_less {P : List Slot} (hw : WellShaped P) (hc : Closed P) (hlen : P.length ≤ 32768) (hu : ∀ sl ∈ P, ∀ i, decode sl = some i → Usual i)
    {n fuel : Nat} {check : Bool} {s} (e : early n fuel check P = .ok s) {fuel' : Nat} (hle : fuel ≤ fuel') : early n fuel' check P = .ok s := by
  unfold early lift at e ⊢
  obtain ⟨⟨f1, R1⟩, e1, e⟩ := Out.bind_eq_ok.1 e
  obtain ⟨f, hf, e1⟩ := Out.bind_eq_ok.1 e1
  rw [hf, Out.ok_bind, post_mono e1 hle, Out.ok_bind]
  unfold pass at e ⊢
  obtain ⟨m, e2, e⟩ := Out.bind_eq_ok.1 e
  dsimp only at e2 ⊢
  rw [Phi.removeTrivial_mono _ _ _ e2 fuel' hle, Out.ok_bind]
  exact post_mono e hle

/-- The parts of a run that has succeeded. -/
theorem guarded_parts {P : List Slot} (hw : WellShaped P) (hc : Closed P) (hlen : P.length ≤ 32768) (hu : ∀ sl ∈ P, ∀ i, decode sl = some i → Usual i)
    (hcl : ∀ sl ∈ P, ∀ i, decode sl = some i → Clean i) {n fuel : Nat} {check : Bool} {A : GuardedRun} (e : autorunGuards n fuel check P = .ok A) (hn : NoLabels A.reach A.lifted) :
    Code A.opt ∧ NoPrintk A.opt ∧ A.opt.sp = 0 ∧ A.opt.args = [1, 2, 3, 4, 5] ∧
      (∀ {M W σ τ}, Lift.Agree M W → Lift.Start σ τ → (¬ DividesByZero A.reach W A.lifted τ → Lifts M P σ W A.opt τ) ∧
        (DividesByZero A.reach W A.lifted τ → (∃ m τ', runFn W A.opt m τ = .done 1 τ') ∧ (ZeroDivides M P σ ∨ ∃ n, Bpf.run M P n 0 σ = .stuck))) ∧
      pass fuel check (fun _ f => Stack.pre f) (A.opt, []) = .ok (A.fn, A.blocks) ∧ Compile.compile A.fn A.blocks = .ok A.res := by
  unfold autorunGuards at e
  obtain ⟨⟨f1, R1⟩, e1, e⟩ := Out.bind_eq_ok.1 e
  obtain ⟨⟨f2, R2⟩, e2, e⟩ := Out.bind_eq_ok.1 e
  obtain ⟨⟨f3, R3⟩, e3, e⟩ := Out.bind_eq_ok.1 e
  obtain ⟨r, e4, e⟩ := Out.bind_eq_ok.1 e
  cases e
  dsimp only at hn ⊢
  have hf : ∃ f, Lift.lift n P = .ok f := by
    unfold early lift at e1
    obtain ⟨_, e1, _⟩ := Out.bind_eq_ok.1 e1
    obtain ⟨f, hf, _⟩ := Out.bind_eq_ok.1 e1
    exact ⟨f, hf⟩
  obtain ⟨f, hf⟩ := hf
  obtain ⟨m, R, k, a1, a2, a3, a4, a5, a6, a8, a7⟩ := early_of hw hc hlen hu hcl hf
  have := early_less hw hc hlen hu e1 (show fuel ≤ fuel + k by omega)
  rw [a1 _ (by omega)] at this
  cases this
  obtain ⟨g, k', u, R', b1, b2, b3, b4, b5, -, b6, b7, b8, b9, -⟩ := guardPasses_code a2 a4 a3 hn
  have := b4 _ _ _ e2
  cases this
  refine ⟨b5, b6, b7.trans a5, b8.trans a6, fun {M W σ τ} hW hst => ?_, e3, e4⟩
  obtain ⟨g', c1, _, c3⟩ := guards_lifts a2 a3
  rw [b1] at c1
  cases c1
  obtain ⟨d1, d2⟩ := c3 (a2.noPhisBehind a3 hn) (a7 M W σ τ hW hst)
  refine ⟨fun hno => ?_, fun hz => ?_⟩
  · refine Lifts.preserves (f := noThrows g) ?_ (b9 W τ)
    refine lifts_of (fun n x σ' e => ?_) fun e m => ?_
    · rcases d1.returns n x σ' e with ⟨m, τ', q1, q2⟩ | ⟨q, _⟩
      · have := run_noThrows b2 W τ m
        rw [q1] at this
        exact ⟨m, τ', this, q2⟩
      · exact absurd q hno
    · rcases d1.forever e with q | ⟨q, _⟩
      · obtain ⟨b, r, τ', q⟩ := q m
        have := run_noThrows b2 W τ m
        rw [q] at this
        obtain ⟨r', this⟩ := this
        exact ⟨b, r', τ', this⟩
      · exact absurd q hno
  · refine ⟨?_, by obtain ⟨d, y, τ', z1, z2, z3⟩ := hz; exact a8 M W σ τ hW hst d y τ' z2 z1.1 z1.2.1 z3⟩
    obtain ⟨m, τ', q⟩ := d2 hz
    have h1 := run_noThrows b2 W τ m
    rw [q] at h1
    dsimp only at h1
    rcases (b9 W τ).forward m with h2 | ⟨m', h2⟩
    · rw [h1] at h2; cases h2
    · rw [h1] at h2
      generalize hr : runFn W f2 m' τ = r at h2
      cases h2 with
      | done _ _ τ2 _ => exact ⟨m', τ2, hr⟩

/-- **C70** (partial): when a run with `div_by_zero` turned on succeeds, the bytecode it hands on does what the bytecode it was given does (as in C60) if no guarded division gets a divisor of
zero; if one does, it returns 1.

Missing, besides what is missing of C60: programs in which values are merged behind a block with a division (`NoLabels`; there the pass produces wrong code, `C70_violated_phi`); the divisions
that the pass does not guard (`C28_violated_first`, `_mod`, `_width`, `_const`), with which the result does what the original does. -/
theorem C70_guarded_run_partial {P : List Slot} (hw : WellShaped P) (hc : Closed P) (hlen : P.length ≤ 32768) (hu : ∀ sl ∈ P, ∀ i, decode sl = some i → Usual i)
    (hcl : ∀ sl ∈ P, ∀ i, decode sl = some i → Clean i) {n fuel : Nat} {check : Bool} {A : GuardedRun} (e : autorunGuards n fuel check P = .ok A) (hn : NoLabels A.reach A.lifted)
    (hform : ∀ x, InBody A.opt x → Form A.opt.sp A.res.depth .plain (A.opt.insn x))
    (hreg : Regular A.fn A.blocks A.res) (hoff : -2 ^ 31 ≤ A.res.al.off) (hp : ∀ b ∈ A.res.blocks, ∀ i ∈ b.insns, Emit.Plain i) (hout : A.res.code.length ≤ 32768)
    (M N : Bpf.World) (W : IR.World) (hM : Lift.Agree M W) (p : BitVec 64) (hN : Serves A.res.out.f A.blocks A.res.out.pos p N W)
    (hwid : ∀ a, InBody A.res.al.s.f a → A.res.al.s.f.insn a = Edit.mkAlloc .t64 → W.wid a = 8) (σ μ : Bpf.St)
    (hb : Enters p (A.res.depth.signExtend 64) (InFrame A.res.out.f A.blocks A.res.out.pos p) σ μ)
    (hs : Sane W A.res.out.f A.blocks A.res.out.pos p (startAt A.res.out.f A.blocks A.res.out.pos p (initial σ) μ)) :
    (¬ DividesByZero A.reach W A.lifted (initial σ) → Rewrites M P σ N A.res.code μ (SameOutside (InFrame A.res.out.f A.blocks A.res.out.pos p))) ∧
    (DividesByZero A.reach W A.lifted (initial σ) → ∃ m μ', Bpf.run N A.res.code m 0 μ = .done 1 μ') := by
  obtain ⟨h1, h6, hsp, har, hl, ep, ec⟩ := guarded_parts hw hc hlen hu hcl e hn
  obtain ⟨hr, hf⟩ := codegen_of h1 h6 hsp har ep ec hform hreg hoff hp hout N W p hN hwid σ μ hb hs
  obtain ⟨l1, l2⟩ := hl hM (start_initial σ)
  refine ⟨fun hno => ?_, fun hz => ?_⟩
  · have hL := l1 hno
    refine rewrites_of (fun j x σ' er => ?_) fun er m => hf (fun m' => hL.forever er m') m
    obtain ⟨m, τ', e3, e4, e5⟩ := hL.returns j x σ' er
    obtain ⟨m', μ', e6, e7, e8⟩ := hr m x τ' e3
    exact ⟨m', μ', e6, fun a ha => (e7 a ha).trans (by rw [e4]), e8.trans e5⟩
  · obtain ⟨m, τ', e3⟩ := (l2 hz).1
    obtain ⟨m', μ', e6, _⟩ := hr m 1 τ' e3
    exact ⟨m', μ', e6⟩

theorem bpf_stuck_stays {M : Bpf.World} {P : List Slot} : ∀ (n : Nat) {pc : Int} {σ : Bpf.St}, Bpf.run M P n pc σ = .stuck → ∀ d, Bpf.run M P (n + d) pc σ = .stuck
  | 0, _, _, h, _ => by cases h
  | n + 1, pc, σ, h, d => by
    rw [show n + 1 + d = (n + d) + 1 by omega]
    rw [Bpf.run] at h ⊢
    cases hs : Bpf.step M P pc σ with
    | goto pc1 σ1 => rw [hs] at h; exact bpf_stuck_stays n h d
    | done y b => rw [hs] at h; cases h
    | stuck => rfl

/-- Of a program that gets stuck nothing is said. -/
theorem rewrites_stuck {M N : Bpf.World} {P Q : List Slot} {σ μ : Bpf.St} {E : Bpf.St → Bpf.St → Prop} (h : ∃ n, Bpf.run M P n 0 σ = .stuck) : Rewrites M P σ N Q μ E := by
  obtain ⟨n, h⟩ := h
  refine ⟨fun m x σ' e => ?_, fun e => ?_, fun _ _ _ _ => .inr ⟨n, h⟩⟩
  · have h1 := bpf_stuck_stays n h m
    have h2 := bpf_done_stays m e n
    rw [Nat.add_comm, h1] at h2
    cases h2
  · obtain ⟨pc, σ', e⟩ := e n
    rw [h] at e
    cases e

/-- **C70** (partial), said of the two programs only: the bytecode that is handed on does what the bytecode that was given does, or this gets to a division by a register that holds zero and the
other returns 1.  Conditions, and what is missing, as above. -/
theorem C70_bytecode_partial {P : List Slot} (hw : WellShaped P) (hc : Closed P) (hlen : P.length ≤ 32768) (hu : ∀ sl ∈ P, ∀ i, decode sl = some i → Usual i)
    (hcl : ∀ sl ∈ P, ∀ i, decode sl = some i → Clean i) {n fuel : Nat} {check : Bool} {A : GuardedRun} (e : autorunGuards n fuel check P = .ok A) (hn : NoLabels A.reach A.lifted)
    (hform : ∀ x, InBody A.opt x → Form A.opt.sp A.res.depth .plain (A.opt.insn x))
    (hreg : Regular A.fn A.blocks A.res) (hoff : -2 ^ 31 ≤ A.res.al.off) (hp : ∀ b ∈ A.res.blocks, ∀ i ∈ b.insns, Emit.Plain i) (hout : A.res.code.length ≤ 32768)
    (M N : Bpf.World) (W : IR.World) (hM : Lift.Agree M W) (p : BitVec 64) (hN : Serves A.res.out.f A.blocks A.res.out.pos p N W)
    (hwid : ∀ a, InBody A.res.al.s.f a → A.res.al.s.f.insn a = Edit.mkAlloc .t64 → W.wid a = 8) (σ μ : Bpf.St)
    (hb : Enters p (A.res.depth.signExtend 64) (InFrame A.res.out.f A.blocks A.res.out.pos p) σ μ)
    (hs : Sane W A.res.out.f A.blocks A.res.out.pos p (startAt A.res.out.f A.blocks A.res.out.pos p (initial σ) μ)) :
    Rewrites M P σ N A.res.code μ (SameOutside (InFrame A.res.out.f A.blocks A.res.out.pos p)) ∨
    (ZeroDivides M P σ ∧ ∃ m μ', Bpf.run N A.res.code m 0 μ = .done 1 μ') := by
  obtain ⟨h1, h2⟩ := C70_guarded_run_partial hw hc hlen hu hcl e hn hform hreg hoff hp hout M N W hM p hN hwid σ μ hb hs
  obtain ⟨-, -, -, -, hl, -, -⟩ := guarded_parts hw hc hlen hu hcl e hn
  by_cases hz : DividesByZero A.reach W A.lifted (initial σ)
  · rcases ((hl hM (start_initial σ)).2 hz).2 with h | h
    · exact .inr ⟨h, h2 hz⟩
    · exact .inl (rewrites_stuck h)
  · exact .inl (h1 hz)

/-- **C70**: the passes of such a run up to code generation succeed (with enough fuel, with the checker on or off). -/
theorem C70_passes {P : List Slot} (h : Fair P) (hr : Bpf.KnownRegs P) (hs : ¬ Bpf.Unknown P) (hi : ¬ Bpf.ReadsUnset P) :
    ∃ n0, ∀ n, n0 ≤ n → ∃ f R k, (∀ fuel, k ≤ fuel → ∀ check, early n fuel check P = .ok (f, R)) ∧
      (NoLabels R f → ∃ u R' k', (∀ fuel, k' ≤ fuel → ∀ check, guardPasses fuel check (f, R) = .ok (u, R')) ∧ LaidOut u R' ∧ WellFormed u R' ∧ Ssa u) := by
  obtain ⟨n0, h0⟩ := Lift.C61_exact h.shaped h.closed h.len hr (clean_six h.clean)
  refine ⟨n0, fun n hn => ?_⟩
  obtain ⟨f, hf⟩ := (h0 n hn).1.2 ⟨hs, hi⟩
  obtain ⟨m, R, k, a1, a2, a3, a4, _⟩ := early_of h.shaped h.closed h.len h.usual h.clean hf
  refine ⟨m, R, k, a1, fun hl => ?_⟩
  obtain ⟨g, k', u, R', _, _, b3, _, b5, b6, _⟩ := guardPasses_code a2 a4 a3 hl
  exact ⟨u, R', k', b3, b6, b5.wellFormed fun b hb => (b6.mem b).1 hb, b5.ssa⟩

/-! ## Examples -/

open Verif.Compile (compP worldOf regular_of_check serves_of)
open Verif.Flatten (exM sane_of_check of_doneB)

/-- The test of C60 for the conditions. -/
theorem guarded_of_check {P : List Slot} (hP : Fair P) {n fuel : Nat} {check : Bool} {A : GuardedRun} (e : autorunGuards n fuel check P = .ok A) (hn : NoLabels A.reach A.lifted) (h : runB A.toRun = true) :
    (¬ DividesByZero A.reach (worldOf A.res) A.lifted (initial (entry (A.res.depth.signExtend 64))) →
      Rewrites keepM P (entry (A.res.depth.signExtend 64)) exM A.res.code (entry 0) (SameOutside (InFrame A.res.out.f A.blocks A.res.out.pos compP))) ∧
    (DividesByZero A.reach (worldOf A.res) A.lifted (initial (entry (A.res.depth.signExtend 64))) → ∃ m μ', Bpf.run exM A.res.code m 0 (entry 0) = .done 1 μ') := by
  simp only [runB, Bool.and_eq_true, decide_eq_true_eq] at h
  obtain ⟨⟨⟨⟨⟨⟨⟨h1, h2⟩, h3⟩, h4⟩, h5⟩, h6⟩, h7⟩, h8⟩ := h
  have hform : ∀ x, InBody A.opt x → Stack.Form A.opt.sp A.res.depth .plain (A.opt.insn x) := by
    rintro x ⟨b, hb, hx⟩
    exact plain_of_check (List.all_eq_true.1 (List.all_eq_true.1 h1 b hb) x hx)
  obtain ⟨p1, p2, -, -, -, ep, ec⟩ := guarded_parts hP.shaped hP.closed hP.len hP.usual hP.clean e hn
  obtain ⟨-, hm, lR, hno, hF, -⟩ := marked_of p1 p2 ep hform
  have hreg := regular_of_check ec (hm.ready lR hno) (hm.neat lR) (hm.fits lR hF) (fun b hb x hx ho => absurd ho (hm.plain (.inr (.inr ⟨b, (lR.mem b).1 hb, hx⟩))).2) hm.graph h2
  exact C70_guarded_run_partial hP.shaped hP.closed hP.len hP.usual hP.clean e hn hform hreg h3 (fun b hb i hi => Emit.plain_of_check (List.all_eq_true.1 (List.all_eq_true.1 h4 b hb) i hi)) h5
    _ _ _ (keep_agree A.res) compP (serves_of _ h6) (fun _ _ _ => rfl) _ _ (entry_enters _ _) (sane_of_check 60 h7 (of_doneB h8))

/-- A test for `NoLabels`. -/
def noLabelsB (R : List Nat) (f : Fn) : Bool := R.all fun b => !(f.body b).any (fun d => decide ((f.insn d).op = .div)) ||
  f.allBbs.all fun c => (f.body c).all fun x => !decide ((f.insn x).op = .phi) || (f.insn x).phi.all fun o => decide (o.1 ≠ b)

theorem noLabels_of_check (h : noLabelsB R f = true) : NoLabels R f := by
  intro b hb ⟨d, hd, ho⟩ x ⟨c, hc, hx⟩ hp o hm
  have h1 := List.all_eq_true.1 h b hb
  have h2 : (f.body b).any (fun d => decide ((f.insn d).op = .div)) = true := List.any_eq_true.2 ⟨d, hd, decide_eq_true ho⟩
  rw [h2] at h1
  have h3 := List.all_eq_true.1 (List.all_eq_true.1 h1 c hc) x hx
  rw [decide_eq_true hp] at h3
  exact of_decide_eq_true (List.all_eq_true.1 h3 o hm)

/-- A guarded division is next, and the divisor is zero. -/
def zeroB (R : List Nat) (f : Fn) : Res → Bool
  | .running _ (d :: _) τ => decide ((f.insn d).op = .div) && R.any (fun b => decide (d ∈ (f.body b).tail) && decide (d ∉ (f.body b).take 1)) &&
    match ((f.insn d).vals[1]? : Option Val) with | some (.insn y) => decide (τ.env y = 0) | _ => false
  | _ => false

theorem divides_of_check {W : IR.World} {τ : IR.St} {k : Nat} (h : zeroB R f (runFn W f k τ) = true) : DividesByZero R W f τ := by
  unfold zeroB at h
  split at h
  · rename_i b d r τ' er
    simp only [Bool.and_eq_true, decide_eq_true_eq, List.any_eq_true] at h
    obtain ⟨⟨h1, c, hc, h2, -⟩, h3⟩ := h
    split at h3
    · rename_i y hv
      refine ⟨d, y, τ', ⟨h1, hv, c, hc, ?_⟩, ⟨k, b, r, er⟩, of_decide_eq_true h3⟩
      cases hb : f.body c with
      | nil => rw [hb] at h2; cases h2
      | cons z zs =>
        rw [hb] at h2
        obtain ⟨l, r, e⟩ := List.append_of_mem (show d ∈ zs from h2)
        exact ⟨z :: l, r, by rw [e]; rfl, by simp⟩
    · cases h3
  · cases h

theorem divides_not_of_check {W : IR.World} {τ : IR.St} {K : Nat} (h : (List.range K).all (fun k => !zeroB R f (runFn W f k τ)) = true) (hn : ∀ b ∈ R, (f.body b).Nodup)
    (hd : (match runFn W f K τ with | .done _ _ => true | _ => false) = true) : ¬ DividesByZero R W f τ := by
  rintro ⟨d, y, τ', ⟨h1, hv, c, hc, l, r, e, hl⟩, ⟨k, b, r', er⟩, h0⟩
  have hlt : k < K := by
    apply Classical.byContradiction
    intro hk
    obtain ⟨j, rfl⟩ := Nat.exists_eq_add_of_le (show K ≤ k by omega)
    unfold runFn at er hd
    rw [Lift.run_add] at er
    revert hd er
    cases run W f K f.entry (f.body f.entry) τ <;> intro er hd
    all_goals first | cases hd | cases er
  have := List.all_eq_true.1 h k (List.mem_range.2 hlt)
  rw [er] at this
  obtain ⟨z, zs, rfl⟩ := List.exists_cons_of_ne_nil hl
  have hnd := hn c hc
  rw [e] at hnd
  have h2 : R.any (fun b => decide (d ∈ (f.body b).tail) && decide (d ∉ (f.body b).take 1)) = true := by
    refine List.any_eq_true.2 ⟨c, hc, ?_⟩
    rw [e]
    have hz : d ≠ z := fun k => (List.nodup_cons.1 hnd).1 (by rw [← k]; simp)
    simp [hz]
  simp only [zeroB, decide_eq_true h1, h2, hv, decide_eq_true h0] at this
  cases this

/-- `r0 = r2; r1 -= 5; r0 /= r1; exit`: r1 is 5 at the start. -/
def exZero : List Slot := [⟨0xbf, 0, 2, 0, 0⟩, ⟨0x17, 1, 0, 0, 5⟩, ⟨0x3f, 0, 1, 0, 0⟩, ⟨0x95, 0, 0, 0, 0⟩]

/-- What a program returns after a run with guards. -/
def guardedRet (P : List Slot) : Option (BitVec 64) :=
  match autorunGuards 100 100 true P with
  | .ok A => match Bpf.run exM A.res.code 200 0 (entry 0) with | .done v _ => some v | _ => none
  | _ => none

/-- The hypotheses hold for `exDivide`, which divides 13 by 5, and for `exZero`, which divides by zero. -/
theorem exDivide_runs : ∃ A, autorunGuards 100 100 true exDivide = .ok A ∧
    Rewrites keepM exDivide (entry (A.res.depth.signExtend 64)) exM A.res.code (entry 0) (SameOutside (InFrame A.res.out.f A.blocks A.res.out.pos compP)) := by
  have h : Cg.onOk (autorunGuards 100 100 true exDivide) (fun A => noLabelsB A.reach A.lifted && runB A.toRun &&
      ((List.range 60).all (fun k => !zeroB A.reach A.lifted (runFn (worldOf A.res) A.lifted k (initial (entry (A.res.depth.signExtend 64))))) &&
      decide (∀ b ∈ A.reach, (A.lifted.body b).Nodup) && (match runFn (worldOf A.res) A.lifted 60 (initial (entry (A.res.depth.signExtend 64))) with | .done _ _ => true | _ => false))) = true := by decide +kernel
  obtain ⟨A, e, h⟩ := Cg.of_onOk h
  simp only [Bool.and_eq_true] at h
  exact ⟨A, e, (guarded_of_check (fair_of_check (by decide +kernel)) e (noLabels_of_check h.1.1) h.1.2).1 (divides_not_of_check h.2.1.1 (of_decide_eq_true h.2.1.2) h.2.2)⟩

theorem exZero_runs : ∃ A, autorunGuards 100 100 true exZero = .ok A ∧ ∃ m μ', Bpf.run exM A.res.code m 0 (entry 0) = .done 1 μ' := by
  have h : Cg.onOk (autorunGuards 100 100 true exZero) (fun A => noLabelsB A.reach A.lifted && runB A.toRun &&
      zeroB A.reach A.lifted (runFn (worldOf A.res) A.lifted 1 (initial (entry (A.res.depth.signExtend 64))))) = true := by decide +kernel
  obtain ⟨A, e, h⟩ := Cg.of_onOk h
  simp only [Bool.and_eq_true] at h
  exact ⟨A, e, (guarded_of_check (fair_of_check (by decide +kernel)) e (noLabels_of_check h.1.1) h.1.2).2 (divides_of_check h.2)⟩

example : guardedRet exDivide = some 2 ∧ guardedRet exZero = some 1 := by decide +kernel

/-- `r0 = 7; if (r1 <= 20) { r0 = r1; r0 += 9; r0 /= r1 } exit`: two values of r0 are merged behind the division. -/
def exMerge : List Slot := [⟨0xb7, 0, 0, 0, 7⟩, ⟨0x25, 1, 0, 3, 20⟩, ⟨0xbf, 0, 1, 0, 0⟩, ⟨0x07, 0, 0, 0, 9⟩, ⟨0x3f, 0, 1, 0, 0⟩, ⟨0x95, 0, 0, 0, 0⟩]

/-- **C70** does not hold of all runs: when a block with a guarded division is split, the phis behind it still name the first half, and the copy for the phi is made there, in front of the division.
r1 is 5 and nothing is divided by zero; the program returns 14 / 5, and so does what a run without guards makes of it, but with guards 5 is returned. -/
theorem C70_violated_phi : Fair exMerge ∧ both exMerge = some (2, 2) ∧ ∃ A, autorunGuards 100 100 true exMerge = .ok A ∧
    ¬ DividesByZero A.reach (worldOf A.res) A.lifted (initial (entry (A.res.depth.signExtend 64))) ∧
    (∃ m σ', Bpf.run keepM exMerge m 0 (entry (A.res.depth.signExtend 64)) = .done 2 σ') ∧ (∃ m μ', Bpf.run exM A.res.code m 0 (entry 0) = .done 5 μ') ∧
    ∀ E, ¬ Rewrites keepM exMerge (entry (A.res.depth.signExtend 64)) exM A.res.code (entry 0) E := by
  have h : Cg.onOk (autorunGuards 100 100 true exMerge) (fun A => ((List.range 60).all (fun k => !zeroB A.reach A.lifted (runFn (worldOf A.res) A.lifted k (initial (entry (A.res.depth.signExtend 64))))) &&
      decide (∀ b ∈ A.reach, (A.lifted.body b).Nodup) && (match runFn (worldOf A.res) A.lifted 60 (initial (entry (A.res.depth.signExtend 64))) with | .done _ _ => true | _ => false)) &&
      (match Bpf.run keepM exMerge 200 0 (entry (A.res.depth.signExtend 64)) with | .done v _ => decide (v = 2) | _ => false) &&
      (match Bpf.run exM A.res.code 200 0 (entry 0) with | .done v _ => decide (v = 5) | _ => false)) = true := by decide +kernel
  obtain ⟨A, e, h⟩ := Cg.of_onOk h
  simp only [Bool.and_eq_true] at h
  obtain ⟨⟨⟨⟨h1, h2⟩, h3⟩, h4⟩, h5⟩ := h
  have e1 : ∃ σ', Bpf.run keepM exMerge 200 0 (entry (A.res.depth.signExtend 64)) = .done 2 σ' := by
    split at h4
    · rename_i v σ' ev
      exact ⟨σ', by rw [ev, of_decide_eq_true h4]⟩
    · cases h4
  have e2 : ∃ μ', Bpf.run exM A.res.code 200 0 (entry 0) = .done 5 μ' := by
    split at h5
    · rename_i v σ' ev
      exact ⟨σ', by rw [ev, of_decide_eq_true h5]⟩
    · cases h5
  obtain ⟨σ', e1⟩ := e1
  obtain ⟨μ', e2⟩ := e2
  refine ⟨fair_of_check (by decide +kernel), by decide +kernel, A, e, divides_not_of_check h1 (of_decide_eq_true h2) h3, ⟨_, _, e1⟩, ⟨_, _, e2⟩, fun E hR => ?_⟩
  obtain ⟨m, μ1, e3, -⟩ := hR.returns _ _ _ e1
  exact absurd (bpf_done_unique e3 e2).1 (by decide)

end Verif.Pipe
