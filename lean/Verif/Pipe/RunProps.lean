import Verif.Pipe.Passes
import Verif.Spec.Rewrite
/-!
# C59, C60: the passes, and the whole run
-/
namespace Verif.Pipe
open Verif Verif.IR
open Verif.Bpf (Slot Instr decode WellShaped Closed)
open Verif.Flatten (graphOf InFrame Serves Sane cut)
open Verif.Compile (startAt Result Regular)
open Verif.Stack (Form prep)
open Verif.Lift (Clean)

theorem ir_done_unique {W : IR.World} {f : Fn} {n m : Nat} {τ : IR.St} {x y a b} (h1 : runFn W f n τ = .done x a) (h2 : runFn W f m τ = .done y b) : x = y ∧ a = b := by
  have key : ∀ {n m : Nat} {x y a b}, n ≤ m → runFn W f n τ = .done x a → runFn W f m τ = .done y b → x = y ∧ a = b := by
    intro n m x y a b hle h1 h2
    obtain ⟨d, rfl⟩ := Nat.exists_eq_add_of_le hle
    unfold runFn at h1 h2
    rw [Lift.run_add, h1] at h2
    cases h2
    exact ⟨rfl, rfl⟩
  rcases Nat.le_total n m with h | h
  · exact key h h1 h2
  · obtain ⟨e1, e2⟩ := key h h2 h1
    exact ⟨e1.symm, e2.symm⟩

theorem bpf_done_stays {M : Bpf.World} {P : List Slot} : ∀ (n : Nat) {pc : Int} {σ : Bpf.St} {x a}, Bpf.run M P n pc σ = .done x a → ∀ d, Bpf.run M P (n + d) pc σ = .done x a
  | 0, _, _, _, _, h, _ => by cases h
  | n + 1, pc, σ, x, a, h, d => by
    rw [show n + 1 + d = (n + d) + 1 by omega]
    rw [Bpf.run] at h ⊢
    cases hs : Bpf.step M P pc σ with
    | goto pc1 σ1 => rw [hs] at h; exact bpf_done_stays n h d
    | done y b => rw [hs] at h; exact h
    | stuck => rw [hs] at h; cases h

theorem bpf_done_unique {M : Bpf.World} {P : List Slot} {n m : Nat} {pc : Int} {σ : Bpf.St} {x y a b} (h1 : Bpf.run M P n pc σ = .done x a) (h2 : Bpf.run M P m pc σ = .done y b) : x = y ∧ a = b := by
  have e1 := bpf_done_stays n h1 m
  have e2 := bpf_done_stays m h2 n
  rw [Nat.add_comm, e1] at e2
  cases e2
  exact ⟨rfl, rfl⟩

/-- A program that never stops, returns or is stuck. -/
theorem bpf_cases (M : Bpf.World) (P : List Slot) (σ : Bpf.St) : (∀ n, ∃ pc σ', Bpf.run M P n 0 σ = .goto pc σ') ∨ (∃ n x σ', Bpf.run M P n 0 σ = .done x σ') ∨ ∃ n, Bpf.run M P n 0 σ = .stuck := by
  by_cases h : ∀ n, ∃ pc σ', Bpf.run M P n 0 σ = .goto pc σ'
  · exact .inl h
  · refine .inr ?_
    obtain ⟨n, hn⟩ := Classical.not_forall.1 h
    cases hr : Bpf.run M P n 0 σ with
    | goto pc σ' => exact absurd ⟨pc, σ', hr⟩ hn
    | done x σ' => exact .inl ⟨n, x, σ', hr⟩
    | stuck => exact .inr ⟨n, hr⟩

/-- What follows from the first two. -/
theorem lifts_of {M : Bpf.World} {P : List Slot} {σ : Bpf.St} {W : IR.World} {f : Fn} {τ : IR.St}
    (h1 : ∀ n x σ', Bpf.run M P n 0 σ = .done x σ' → ∃ m τ', runFn W f m τ = .done x τ' ∧ SameCalls σ' τ')
    (h2 : (∀ n, ∃ pc σ', Bpf.run M P n 0 σ = .goto pc σ') → ∀ m, ∃ b r τ', runFn W f m τ = .running b r τ') : Lifts M P σ W f τ := by
  refine ⟨h1, h2, fun m x τ' h => ?_⟩
  rcases bpf_cases M P σ with hc | ⟨n, y, σ', hc⟩ | hc
  · obtain ⟨b, r, τ1, e⟩ := h2 hc m
    rw [h] at e; cases e
  · obtain ⟨m', τ1, e1, e2⟩ := h1 n y σ' hc
    obtain ⟨rfl, rfl⟩ := ir_done_unique h e1
    exact .inl ⟨n, σ', hc, e2⟩
  · exact .inr hc

theorem rewrites_of {M N : Bpf.World} {P Q : List Slot} {σ μ : Bpf.St} {E : Bpf.St → Bpf.St → Prop}
    (h1 : ∀ n x σ', Bpf.run M P n 0 σ = .done x σ' → ∃ m μ', Bpf.run N Q m 0 μ = .done x μ' ∧ E σ' μ')
    (h2 : (∀ n, ∃ pc σ', Bpf.run M P n 0 σ = .goto pc σ') → ∀ m, ∃ pc μ', Bpf.run N Q m 0 μ = .goto pc μ') : Rewrites M P σ N Q μ E := by
  refine ⟨h1, h2, fun m x μ' h => ?_⟩
  rcases bpf_cases M P σ with hc | ⟨n, y, σ', hc⟩ | hc
  · obtain ⟨pc, μ1, e⟩ := h2 hc m
    rw [h] at e; cases e
  · obtain ⟨m', μ1, e1, e2⟩ := h1 n y σ' hc
    obtain ⟨rfl, rfl⟩ := bpf_done_unique h e1
    exact .inl ⟨n, σ', hc, e2⟩
  · exact .inr hc

theorem Lifts.preserves {M : Bpf.World} {P : List Slot} {σ : Bpf.St} {W : IR.World} {f g : Fn} {τ : IR.St} (h : Lifts M P σ W f τ) (hp : Preserves W f g τ) : Lifts M P σ W g τ := by
  refine lifts_of (fun n x σ' e => ?_) fun e m => ?_
  · obtain ⟨m, τ', e1, e2⟩ := h.returns n x σ' e
    rcases hp.forward m with e3 | ⟨m', e3⟩
    · rw [e1] at e3; cases e3
    · rw [e1] at e3
      generalize hr : runFn W g m' τ = r at e3
      cases e3 with
      | done _ _ τ2 ho => exact ⟨m', τ2, hr, ho.1.trans e2.1, ho.2.trans e2.2⟩
  · obtain ⟨n, e1⟩ := hp.backward m
    obtain ⟨b, r, τ', e2⟩ := h.forever e n
    rcases e1 with e1 | ⟨e1, _⟩
    · rw [e2] at e1; cases e1
    · rw [e2] at e1
      generalize hr : runFn W g m τ = r at e1
      cases e1 with
      | running _ _ _ _ _ _ _ => exact ⟨_, _, _, rfl⟩

/-- Functions that run alike. -/
theorem Lifts.congr {M : Bpf.World} {P : List Slot} {σ : Bpf.St} {W : IR.World} {f g : Fn} {τ : IR.St} (h : Lifts M P σ W f τ) (hp : ∀ n, RelRes Eq (runFn W f n τ) (runFn W g n τ)) : Lifts M P σ W g τ := by
  refine lifts_of (fun n x σ' e => ?_) fun e m => ?_
  · obtain ⟨m, τ', e1, e2⟩ := h.returns n x σ' e
    have e3 := hp m
    rw [e1] at e3
    generalize hr : runFn W g m τ = r at e3
    cases e3 with
    | done _ _ _ ho => subst ho; exact ⟨m, _, hr, e2⟩
  · obtain ⟨b, r, τ', e2⟩ := h.forever e m
    have e1 := hp m
    rw [e2] at e1
    generalize hr : runFn W g m τ = r at e1
    cases e1 with
    | running _ _ _ _ _ _ _ => exact ⟨_, _, _, rfl⟩

theorem lifts_lift {P : List Slot} (hw : WellShaped P) (hlen : P.length ≤ 32768) (hcl : ∀ sl ∈ P, ∀ i, decode sl = some i → Clean i)
    {n : Nat} {f : Fn} (hf : Lift.lift n P = .ok f) (hne : P ≠ []) {M : Bpf.World} {W : IR.World} (hW : Lift.Agree M W) {σ : Bpf.St} {τ : IR.St} (hs : Lift.Start σ τ) : Lifts M P σ W f τ := by
  refine lifts_of (fun j x σ' e => ?_) fun e m => Lift.lift_forever hw hlen hcl hf hne hW hs e m
  obtain ⟨m, τ', e1, e2, e3⟩ := (Lift.lift_sim hw hlen hcl hf hne hW hs j).2 x σ' e
  exact ⟨m, τ', e1, e2, e3⟩

theorem run_marked {f : Fn} (W : IR.World) (n : Nat) (σ : IR.St) : RelRes Eq (runFn W f n σ) (runFn W (marked f) n σ) := by
  refine IR.run_lock (W := W) (R := Eq) (f := f) (g := marked f) rfl rfl (fun b x hx => ⟨?_, fun σ σ' e e' h v => ?_⟩) n f.entry (f.body f.entry) σ σ rfl (fun x hx => hx)
  · by_cases hm : x ∈ f.users f.sp
    · exact Stack.lock_prep W f (marked f) x (if_pos hm)
    · have e : (marked f).insn x = f.insn x := if_neg hm
      refine ⟨by rw [e], by rw [e], by rw [e], fun σ σ' h _ => ?_, fun σ σ' h _ => by rw [e, h], fun σ σ' h _ => by rw [e, h], fun σ σ' h _ p => by rw [e, h]⟩
      subst h
      rw [e]
      cases exec W x (f.insn x) σ with
      | none => exact .none
      | some a => exact .some _ _ rfl
  · have h1 : e = e' := congrArg St.env h
    have h2 := congrArg St.var h
    have h3 := congrArg St.mem h
    have h4 := congrArg St.trace h
    dsimp only at h2 h3 h4
    rw [h1, h2, h3, h4]

/-! ## C59 -/

theorem lifted_shape {P : List Slot} (hw : WellShaped P) (hlen : P.length ≤ 32768) {n : Nat} {f : Fn} (hf : Lift.lift n P = .ok f) : f.sp = 0 ∧ f.args = [1, 2, 3, 4, 5] := by
  obtain ⟨C, g, s, h, rfl⟩ := lifted_parts hw hlen hf
  exact ⟨rfl, rfl⟩

theorem lifted_noPrintk {P : List Slot} (hw : WellShaped P) (hlen : P.length ≤ 32768) (hcl : ∀ sl ∈ P, ∀ i, decode sl = some i → Clean i) {n : Nat} {f : Fn} (hf : Lift.lift n P = .ok f) : NoPrintk f := by
  obtain ⟨C, g, s, h, rfl⟩ := lifted_parts hw hlen hf
  rintro x ⟨b, _, hx⟩ ho
  obtain ⟨sl, h1, h2⟩ := called_of h hx ho
  exact Lift.clean_zero hw.legal hcl sl h1 _ h2

/-- Lifting and the passes, with the function they hand on. -/
theorem passes_lift {P : List Slot} (hw : WellShaped P) (hc : Closed P) (hlen : P.length ≤ 32768) (hu : ∀ sl ∈ P, ∀ i, decode sl = some i → Usual i)
    (hcl : ∀ sl ∈ P, ∀ i, decode sl = some i → Clean i) {n : Nat} {f : Fn} (hf : Lift.lift n P = .ok f) :
    ∃ f' R' k g R, (∀ fuel, k ≤ fuel → ∀ check, lift n fuel check P = .ok (f', R') ∧ passes fuel check (f', R') = .ok (g, R)) ∧ Code f' ∧ LaidOut f' R' ∧ Code g ∧ LaidOut g R ∧ NoPrintk g ∧
      g.sp = 0 ∧ g.args = [1, 2, 3, 4, 5] ∧ ∀ {M W σ τ}, Lift.Agree M W → Lift.Start σ τ → Lifts M P σ W g τ := by
  obtain ⟨g', h1, h2, h3⟩ := lift_code hw hc hlen hu hf
  obtain ⟨k, R', hl, hk⟩ := post_of h1 h3
  obtain ⟨k2, g, R, e, hg, hlg, h6, hsp, har, hp⟩ := passes_code h3 (show NoPrintk (withSuccs f g') from (lifted_noPrintk (f := f) hw hlen hcl hf : NoPrintk f)) hl
  obtain ⟨s1, s2⟩ := lifted_shape hw hlen hf
  refine ⟨_, R', k + k2, g, R, fun fuel hfu check => ⟨?_, e fuel (by omega) check⟩, h3, hl, hg, hlg, h6, hsp.trans s1, har.trans s2, fun {M W σ τ} hW hs => ?_⟩
  · unfold lift
    rw [hf, Out.ok_bind, hk fuel (by omega) check]
  · refine Lifts.preserves (f := withSuccs f g') ?_ (hp W τ)
    have := lifts_lift hw hlen hcl hf hc.1 hW hs
    have hr : ∀ m, runFn W (withSuccs f g') m τ = runFn W f m τ := fun m => h2.run W m τ
    exact ⟨fun n x σ' e => by simpa only [hr] using this.returns n x σ' e, fun e m => by rw [hr]; exact this.forever e m, fun m x τ' e => this.only m x τ' (by rw [← hr]; exact e)⟩

/-- **C59**: for every well-shaped program of at most 32768 slots from which control never runs off the end, whose instructions are lifted faithfully (`Clean`) and that the lifter accepts: all
passes that run by default in front of code generation succeed (with enough fuel, with the checker on or off); what they hand on is well-formed SSA that does what the program does, for
every memory, arguments and helpers (that leave r1 to r5 alone). -/
theorem C59_passes {P : List Slot} (hw : WellShaped P) (hc : Closed P) (hlen : P.length ≤ 32768) (hu : ∀ sl ∈ P, ∀ i, decode sl = some i → Usual i)
    (hcl : ∀ sl ∈ P, ∀ i, decode sl = some i → Clean i) {n : Nat} {f : Fn} (hf : Lift.lift n P = .ok f) :
    ∃ g R k, (∀ fuel, k ≤ fuel → ∀ check, (do let s ← lift n fuel check P; passes fuel check s) = .ok (g, R)) ∧ LaidOut g R ∧ WellFormed g R ∧ Ssa g ∧ Ordered g ∧ UsersListed g ∧
      ∀ M W σ τ, Lift.Agree M W → Lift.Start σ τ → Lifts M P σ W g τ := by
  obtain ⟨f', R', k, g, R, h1, _, _, h2, h3, _, _, _, h4⟩ := passes_lift hw hc hlen hu hcl hf
  refine ⟨g, R, k, fun fuel hfu check => ?_, h3, h2.wellFormed fun b hb => (h3.mem b).1 hb, h2.ssa, h2.ordered, listed h2.ok.users, fun M W σ τ hW hs => h4 hW hs⟩
  obtain ⟨e1, e2⟩ := h1 fuel hfu check
  rw [e1, Out.ok_bind]
  exact e2

/-! ## C60 -/

theorem start_initial (σ : Bpf.St) : Lift.Start σ (initial σ) := ⟨rfl, fun r h1 h2 => if_neg (by omega), rfl, rfl⟩

/-- The parts of a run that has succeeded. -/
theorem autorun_parts {P : List Slot} (hw : WellShaped P) (hc : Closed P) (hlen : P.length ≤ 32768) (hu : ∀ sl ∈ P, ∀ i, decode sl = some i → Usual i)
    (hcl : ∀ sl ∈ P, ∀ i, decode sl = some i → Clean i) {n fuel : Nat} {check : Bool} {A : Run} (e : autorun n fuel check P = .ok A) :
    Code A.opt ∧ NoPrintk A.opt ∧ A.opt.sp = 0 ∧ A.opt.args = [1, 2, 3, 4, 5] ∧ (∀ {M W σ τ}, Lift.Agree M W → Lift.Start σ τ → Lifts M P σ W A.opt τ) ∧
      pass fuel check (fun _ f => Stack.pre f) (A.opt, []) = .ok (A.fn, A.blocks) ∧ Compile.compile A.fn A.blocks = .ok A.res := by
  unfold autorun at e
  obtain ⟨⟨f1, R1⟩, e1, e⟩ := Out.bind_eq_ok.1 e
  obtain ⟨⟨f2, R2⟩, e2, e⟩ := Out.bind_eq_ok.1 e
  obtain ⟨⟨f3, R3⟩, e3, e⟩ := Out.bind_eq_ok.1 e
  obtain ⟨r, e4, e⟩ := Out.bind_eq_ok.1 e
  cases e
  have e1' := e1
  unfold lift at e1'
  obtain ⟨f, hf, e1'⟩ := Out.bind_eq_ok.1 e1'
  obtain ⟨f', R', k, g, R, h1, hc', hl', h2, h3, h4, h5, h6, h7⟩ := passes_lift hw hc hlen hu hcl hf
  -- with more fuel, the same
  have hl : lift n (fuel + k) check P = .ok (f1, R1) := by
    unfold lift
    rw [hf, Out.ok_bind]
    exact post_mono e1' (by omega)
  obtain ⟨hl2, hp⟩ := h1 (fuel + k) (by omega) check
  rw [hl] at hl2
  cases hl2
  rw [passes_less hc' hl' e2 (show fuel ≤ fuel + k by omega)] at hp
  cases hp
  exact ⟨h2, h4, h5, h6, h7, e3, e4⟩

/-- The function that code generation gets. -/
theorem marked_of {opt fn : Fn} {blocks : List Nat} {fuel : Nat} {check : Bool} (h1 : Code opt) (h6 : NoPrintk opt) (ep : pass fuel check (fun _ f => Stack.pre f) (opt, []) = .ok (fn, blocks))
    {d : BitVec 16} (hform : ∀ x, InBody opt x → Form opt.sp d .plain (opt.insn x)) :
    fn = marked opt ∧ Code fn ∧ LaidOut fn blocks ∧ NoPrintk fn ∧ (∀ x, InBody fn x → Form fn.sp d .rawoff (fn.insn x)) ∧
      ∃ k, Layout.layout (graphOf fn) k fn.entry = some (.ok blocks) := by
  obtain ⟨e1, e2⟩ := h1.pre hform
  have hm := h1.marked
  obtain ⟨k, R, lR, hlay, hk⟩ := hm.post
  unfold pass at ep
  dsimp only at ep
  rw [e1, Out.ok_bind] at ep
  have ep' := post_mono ep (show fuel ≤ fuel + k by omega)
  rw [hk _ (by omega)] at ep'
  obtain ⟨ef, eb⟩ := Prod.mk.inj (Out.ok.inj ep')
  subst ef eb
  refine ⟨rfl, hm, lR, fun x hx ho => ?_, fun x hx => ?_, k, hlay⟩
  · rw [e2 x hx] at ho ⊢
    rcases prep_cases opt.sp (opt.insn x) with e | ⟨c, ct, b, e3, _, e⟩
    · rw [e] at ho ⊢; exact h6 x hx ho
    · rw [e] at ho
      rw [show ({ opt.insn x with vals := [.insn opt.sp, .const .rawoff c ct b] } : Insn).op = (opt.insn x).op from rfl, e3] at ho
      cases ho
  · rw [e2 x hx]
    exact Stack.prep_form (hform x hx)

/-- Code generation behind the passes: what the function returns the bytecode returns, and it runs for ever if the function does. -/
theorem codegen_of {opt fn : Fn} {blocks : List Nat} {res : Compile.Result} {fuel : Nat} {check : Bool} (h1 : Code opt) (h6 : NoPrintk opt) (hsp : opt.sp = 0) (har : opt.args = [1, 2, 3, 4, 5])
    (ep : pass fuel check (fun _ f => Stack.pre f) (opt, []) = .ok (fn, blocks)) (ec : Compile.compile fn blocks = .ok res)
    (hform : ∀ x, InBody opt x → Form opt.sp res.depth .plain (opt.insn x))
    (hreg : Regular fn blocks res) (hoff : -2 ^ 31 ≤ res.al.off) (hp : ∀ b ∈ res.blocks, ∀ i ∈ b.insns, Emit.Plain i) (hout : res.code.length ≤ 32768)
    (N : Bpf.World) (W : IR.World) (p : BitVec 64) (hN : Serves res.out.f blocks res.out.pos p N W)
    (hwid : ∀ a, InBody res.al.s.f a → res.al.s.f.insn a = Edit.mkAlloc .t64 → W.wid a = 8) (σ μ : Bpf.St)
    (hb : Enters p (res.depth.signExtend 64) (InFrame res.out.f blocks res.out.pos p) σ μ)
    (hs : Sane W res.out.f blocks res.out.pos p (startAt res.out.f blocks res.out.pos p (initial σ) μ)) :
    (∀ m x τ', runFn W opt m (initial σ) = .done x τ' → ∃ m' μ', Bpf.run N res.code m' 0 μ = .done x μ' ∧ Compile.SameEffect res.out.f blocks res.out.pos p τ' μ') ∧
    ((∀ m, ∃ b r τ', runFn W opt m (initial σ) = .running b r τ') → ∀ m, ∃ pc μ', Bpf.run N res.code m 0 μ = .goto pc μ') := by
  obtain ⟨ef, hm, lR, hno, hF, k, hlay⟩ := marked_of h1 h6 ep hform
  subst ef
  obtain ⟨N', hwf, _⟩ := hm.wf
  have himp := Compile.C57_codegen_partial ec (hm.ready lR hno) (hm.neat lR) (hm.fits lR hF)
    (fun b hb x hx ho => absurd ho (hm.plain (.inr (.inr ⟨b, (lR.mem b).1 hb, hx⟩))).2) hm.graph (fun b hb => hm.conn b ((lR.mem b).1 hb)) hwf hlay (hm.cond lR) hreg hoff hp hout
    W N p (initial σ) μ hN hwid ⟨hb.fp, by
      show (initial σ).env opt.sp = _
      rw [hsp]
      exact hb.orig, fun i a hi => by
      have hi' : opt.args[i]? = some a := hi
      rw [har] at hi'
      have : i < 5 ∧ a = i + 1 := by
        match i, hi' with
        | 0, h => cases h; simp
        | 1, h => cases h; simp
        | 2, h => cases h; simp
        | 3, h => cases h; simp
        | 4, h => cases h; simp
      rw [this.2]
      have e0 : (initial σ).env (i + 1) = σ.reg (i + 1) := rfl
      rw [e0]
      exact hb.args (i + 1) (by omega) (by omega), hb.same.1, hb.same.2⟩ hs
  refine ⟨fun m x τ' e => ?_, fun e m => himp.forever (fun m' => ?_) m⟩
  · have h := run_marked (f := opt) W m (initial σ)
    rw [e] at h
    generalize hr : runFn W (marked opt) m (initial σ) = r at h
    cases h with
    | done _ _ _ ho => subst ho; exact himp.returns m x _ hr
  · obtain ⟨b, r, τ', e'⟩ := e m'
    have h := run_marked (f := opt) W m' (initial σ)
    rw [e'] at h
    generalize hr : runFn W (marked opt) m' (initial σ) = r at h
    cases h with
    | running _ _ _ _ _ _ _ => exact ⟨_, _, _, rfl⟩

theorem autorun_marked {P : List Slot} (hw : WellShaped P) (hc : Closed P) (hlen : P.length ≤ 32768) (hu : ∀ sl ∈ P, ∀ i, decode sl = some i → Usual i)
    (hcl : ∀ sl ∈ P, ∀ i, decode sl = some i → Clean i) {n fuel : Nat} {check : Bool} {A : Run} (e : autorun n fuel check P = .ok A)
    {d : BitVec 16} (hform : ∀ x, InBody A.opt x → Form A.opt.sp d .plain (A.opt.insn x)) :
    A.fn = marked A.opt ∧ Code A.fn ∧ LaidOut A.fn A.blocks ∧ NoPrintk A.fn ∧ (∀ x, InBody A.fn x → Form A.fn.sp d .rawoff (A.fn.insn x)) ∧
      (∃ k, Layout.layout (graphOf A.fn) k A.fn.entry = some (.ok A.blocks)) ∧ Compile.compile A.fn A.blocks = .ok A.res := by
  obtain ⟨h1, h6, -, -, -, ep, ec⟩ := autorun_parts hw hc hlen hu hcl e
  obtain ⟨a, b, c, d, e, f⟩ := marked_of h1 h6 ep hform
  exact ⟨a, b, c, d, e, f, ec⟩

/-- **C60** (partial): when a run without options succeeds, the bytecode it hands on does what the bytecode it was given does: it returns the same value, after the same calls with the same
arguments, with the same memory outside of its own spill slots; it runs for ever if the original does; if it returns, so does the original (or the original is stuck on an instruction that
has no meaning).  `M` is the machine of the original (its helpers leave r1 to r5 alone), `N` the machine of the result (its helpers may do with r1 to r5 what they like).

Missing: programs that the lifter does not read faithfully (`Clean`, C50; helper 6; calls with more than five arguments) or that are not `Usual` and `Closed`; programs that use the frame
pointer in other forms than `r10 + constant` and accesses at constant offsets from r10 (they are miscompiled if anything is spilled, C38); choices of the register allocator that are not
`Regular`, operands in patterns that are not translated faithfully, executions in which the program's own accesses touch the spill slots (C57); programs that are rejected. -/
theorem C60_autorun_partial {P : List Slot} (hw : WellShaped P) (hc : Closed P) (hlen : P.length ≤ 32768) (hu : ∀ sl ∈ P, ∀ i, decode sl = some i → Usual i)
    (hcl : ∀ sl ∈ P, ∀ i, decode sl = some i → Clean i) {n fuel : Nat} {check : Bool} {A : Run} (e : autorun n fuel check P = .ok A)
    (hform : ∀ x, InBody A.opt x → Form A.opt.sp A.res.depth .plain (A.opt.insn x))
    (hreg : Regular A.fn A.blocks A.res) (hoff : -2 ^ 31 ≤ A.res.al.off) (hp : ∀ b ∈ A.res.blocks, ∀ i ∈ b.insns, Emit.Plain i) (hout : A.res.code.length ≤ 32768)
    (M N : Bpf.World) (W : IR.World) (hM : Lift.Agree M W) (p : BitVec 64) (hN : Serves A.res.out.f A.blocks A.res.out.pos p N W)
    (hwid : ∀ a, InBody A.res.al.s.f a → A.res.al.s.f.insn a = Edit.mkAlloc .t64 → W.wid a = 8) (σ μ : Bpf.St)
    (hb : Enters p (A.res.depth.signExtend 64) (InFrame A.res.out.f A.blocks A.res.out.pos p) σ μ)
    (hs : Sane W A.res.out.f A.blocks A.res.out.pos p (startAt A.res.out.f A.blocks A.res.out.pos p (initial σ) μ)) :
    Rewrites M P σ N A.res.code μ (SameOutside (InFrame A.res.out.f A.blocks A.res.out.pos p)) := by
  obtain ⟨h1, h6, hsp, har, hl, ep, ec⟩ := autorun_parts hw hc hlen hu hcl e
  obtain ⟨hr, hf⟩ := codegen_of h1 h6 hsp har ep ec hform hreg hoff hp hout N W p hN hwid σ μ hb hs
  have hL := hl hM (start_initial σ)
  refine rewrites_of (fun j x σ' er => ?_) fun er m => hf (fun m' => hL.forever er m') m
  obtain ⟨m, τ', e3, e4, e5⟩ := hL.returns j x σ' er
  obtain ⟨m', μ', e6, e7, e8⟩ := hr m x τ' e3
  exact ⟨m', μ', e6, fun a ha => (e7 a ha).trans (by rw [e4]), e8.trans e5⟩

end Verif.Pipe
