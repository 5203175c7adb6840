import Verif.Show.Code
import Verif.Pipe.Options
/-!
# C75: the listing of a function
-/
namespace Verif.Show
open Verif Verif.IR Verif.Edit
open Verif.Pipe (Code LaidOut Usual)
open Verif.Flatten (graphOf)
open Verif.Bpf (Slot decode WellShaped Closed)
open Verif.Lift (Clean)
open Verif.Opts (Str)
open Verif.Tool (str)

variable {f g : Fn} {R S : List Nat}

/-- **C75** (numbers): `tag_ir` comes to an end on every function whose edges lead to its blocks; every block that can be reached and every instruction in it that has a value gets a number,
no two blocks get the same number, no two instructions get the same number, and the numbers are below the counts. -/
theorem C75_numbers (he : f.entry ∈ f.allBbs) (hs : ∀ b ∈ f.allBbs, ∀ c ∈ f.succs b, c ∈ f.allBbs) :
    ∃ t, tag f = some t ∧
      (∀ b, Conn f b → (∃ k, t.bid b = some k) ∧ ∀ x ∈ f.body b, isVoid (f.insn x).op = false → ∃ k, t.id x = some k) ∧
      (∀ b c k, t.bid b = some k → t.bid c = some k → b = c) ∧ (∀ x y k, t.id x = some k → t.id y = some k → x = y) ∧
      (∀ b k, t.bid b = some k → k < t.bcnt) ∧ ∀ x k, t.id x = some k → k < t.cnt := by
  obtain ⟨t, ht⟩ := tag_total he hs
  obtain ⟨o, c⟩ := tag_spec ht
  exact ⟨t, ht, fun b hb => ⟨Option.isSome_iff_exists.1 (c b hb), fun x hx hv => Option.isSome_iff_exists.1 (o.all b (c b hb) x hx hv)⟩, fun b c k h1 h2 => o.bid b c k h1 h2, fun x y k h1 h2 => o.id x y k h1 h2,
    fun b k h => o.bsmall b k h, fun x k h => (o.small x k h).1⟩

/-! ## Printing does not disturb a run -/

/-- Printing and the test behind it, core/bpf_ir.c:1789-1790 -/
def shows (E : Fn → Extra) (s : Fn × List Nat) : Out (Fn × List Nat) := do
  let _ ← listing s.1 s.2 (E s.1)
  if sets s.1 s.2 then .err else .ok s

/-- `run_single_pass`, core/bpf_ir.c:1777-1791, with the listing behind it. -/
def loud (E : Fn → Extra) (fuel : Nat) (check : Bool) (p : List Nat → Fn → Out Fn) (s : Fn × List Nat) : Out (Fn × List Nat) := do
  let t ← Pipe.pass fuel check p s
  shows E t

/-- `Pipe.passes` with the listings. -/
def loudPasses (E : Fn → Extra) (fuel : Nat) (check : Bool) (s : Fn × List Nat) : Out (Fn × List Nat) := do
  let s ← loud E fuel check (fun R f => Phi.removeTrivial R fuel f) s
  let s ← loud E fuel check (fun R f => Ecall.handleEcalls fuel R f) s
  let s ← loud E fuel check (fun R f => .ok (Throw.translateThrow R f)) s
  loud E fuel check (Pipe.optimizeIr fuel) s

/-- `bpf_ir_autorun`, core/bpf_ir.c:1941-1991, without options, with the listings up to code generation (those of code generation, `print_ir_prog_cg`, are not modelled).
Behind the lifter `env->err` is not looked at before the first pass has run (core/bpf_ir.c:1961-1965), so that here the error comes earlier than in the code. -/
def loudRun (E : Fn → Extra) (n fuel : Nat) (check : Bool) (P : List Slot) : Out Pipe.Run := do
  let s ← Pipe.lift n fuel check P
  let s ← shows E s
  let s ← loudPasses E fuel check s
  let t ← loud E fuel check (fun _ f => Stack.pre f) s
  let r ← Compile.compile t.1 t.2
  .ok ⟨s.1, t.1, t.2, r⟩

theorem shows_ok {s : Fn × List Nat} (E : Fn → Extra) (h : Code s.1) (hl : LaidOut s.1 s.2) : shows E s = .ok s := by
  obtain ⟨⟨w, e⟩, e'⟩ := listing_ok h hl (E s.1)
  unfold shows
  rw [e, Out.ok_bind, e']
  rfl

theorem loud_ok {E : Fn → Extra} {fuel : Nat} {check : Bool} {p : List Nat → Fn → Out Fn} {s : Fn × List Nat} (h : ∀ t, Pipe.pass fuel check p s = .ok t → Code t.1 ∧ LaidOut t.1 t.2) :
    loud E fuel check p s = Pipe.pass fuel check p s := by
  unfold loud
  cases e : Pipe.pass fuel check p s with
  | ok t => rw [Out.ok_bind]; exact shows_ok E (h t e).1 (h t e).2
  | err => rfl
  | crit => rfl
  | ub => rfl

theorem post_code (h : Code f) {fuel : Nat} {check : Bool} {t} (e : Pipe.post fuel check f = .ok t) : t.1 = f ∧ LaidOut t.1 t.2 := by
  obtain ⟨k, R, hl, _, hk⟩ := h.post
  have := Pipe.post_mono e (show fuel ≤ fuel + k by omega)
  rw [hk _ (by omega)] at this
  cases this
  exact ⟨rfl, hl⟩

theorem pass_code {p : List Nat → Fn → Out Fn} {s : Fn × List Nat} {fuel : Nat} {check : Bool} (h : ∀ g, p s.2 s.1 = .ok g → Code g) :
    ∀ t, Pipe.pass fuel check p s = .ok t → Code t.1 ∧ LaidOut t.1 t.2 := by
  intro t e
  unfold Pipe.pass at e
  obtain ⟨g, e1, e⟩ := Out.bind_eq_ok.1 e
  obtain ⟨e2, hl⟩ := post_code (h g e1) e
  exact ⟨e2 ▸ h g e1, hl⟩

theorem same_bind {α β : Type} {a b : Out α} {u v : α → Out β} (h : a = b) (k : ∀ x, b = .ok x → u x = v x) : a.bind u = b.bind v := by
  subst h
  cases a with
  | ok x => exact k x rfl
  | err => rfl
  | crit => rfl
  | ub => rfl

theorem loudPasses_ok (h : Code f) (hl : LaidOut f R) (E : Fn → Extra) (fuel : Nat) (check : Bool) :
    loudPasses E fuel check (f, R) = Pipe.passes fuel check (f, R) ∧ ∀ t, Pipe.passes fuel check (f, R) = .ok t → Code t.1 ∧ LaidOut t.1 t.2 := by
  have c1 : ∀ t, Pipe.pass fuel check (fun R f => Phi.removeTrivial R fuel f) (f, R) = .ok t → Code t.1 ∧ LaidOut t.1 t.2 := by
    refine pass_code fun g hg => ?_
    obtain ⟨k, m, e1, e2⟩ := Pipe.removeTrivial_code h hl
    have := Phi.removeTrivial_mono _ _ _ hg (fuel + k) (by omega)
    rw [e1 _ (by omega)] at this
    cases this
    exact h.pruned e2
  have c2 : ∀ s : Fn × List Nat, Code s.1 → LaidOut s.1 s.2 → ∀ t, Pipe.pass fuel check (fun R f => Ecall.handleEcalls fuel R f) s = .ok t → Code t.1 ∧ LaidOut t.1 t.2 := by
    intro s h1 h2
    refine pass_code fun g hg => ?_
    rw [h1.noEcall h2] at hg
    cases hg
    exact h1
  have c3 : ∀ s : Fn × List Nat, Code s.1 → LaidOut s.1 s.2 → ∀ t, Pipe.pass fuel check (fun R f => .ok (Throw.translateThrow R f)) s = .ok t → Code t.1 ∧ LaidOut t.1 t.2 := by
    intro s h1 h2
    refine pass_code fun g hg => ?_
    rw [h1.noThrow h2] at hg
    cases hg
    exact h1
  have c4 : ∀ s : Fn × List Nat, Code s.1 → LaidOut s.1 s.2 → ∀ t, Pipe.pass fuel check (Pipe.optimizeIr fuel) s = .ok t → Code t.1 ∧ LaidOut t.1 t.2 := by
    intro s h1 h2
    refine pass_code fun g hg => ?_
    obtain ⟨k, m, e1, e2⟩ := Pipe.optimizeIr_code h1 h2
    unfold Pipe.optimizeIr at hg
    obtain ⟨u, e3, hg⟩ := Out.bind_eq_ok.1 hg
    have e4 := e1 (fuel + k) (by omega)
    unfold Pipe.optimizeIr at e4
    rw [Dead.removeNoUser_mono _ _ _ e3 _ (Nat.le_add_right _ _), Out.ok_bind] at e4
    rw [hg] at e4
    cases e4
    exact h1.cut e2
  constructor
  · refine same_bind (loud_ok c1) fun s1 e1 => same_bind (loud_ok (c2 _ (c1 _ e1).1 (c1 _ e1).2)) fun s2 e2 => ?_
    obtain ⟨a2, b2⟩ := c2 _ (c1 _ e1).1 (c1 _ e1).2 _ e2
    refine same_bind (loud_ok (c3 _ a2 b2)) fun s3 e3 => ?_
    obtain ⟨a3, b3⟩ := c3 _ a2 b2 _ e3
    exact loud_ok (c4 _ a3 b3)
  · intro t e
    unfold Pipe.passes at e
    obtain ⟨s1, e1, e⟩ := Out.bind_eq_ok.1 e
    obtain ⟨s2, e2, e⟩ := Out.bind_eq_ok.1 e
    obtain ⟨s3, e3, e⟩ := Out.bind_eq_ok.1 e
    obtain ⟨a1, b1⟩ := c1 _ e1
    obtain ⟨a2, b2⟩ := c2 _ a1 b1 _ e2
    obtain ⟨a3, b3⟩ := c3 _ a2 b2 _ e3
    exact c4 _ a3 b3 _ e

theorem lift_quiet {P : List Slot} (hw : WellShaped P) (hc : Closed P) (hlen : P.length ≤ 32768) (hu : ∀ sl ∈ P, ∀ i, decode sl = some i → Usual i) {n fuel : Nat} {check : Bool} {s}
    (e : Pipe.lift n fuel check P = .ok s) : Code s.1 ∧ LaidOut s.1 s.2 := by
  unfold Pipe.lift at e
  obtain ⟨f, hf, e⟩ := Out.bind_eq_ok.1 e
  obtain ⟨g', h1, h2, h3⟩ := Pipe.lift_code hw hc hlen hu hf
  obtain ⟨k, R, hl, hk⟩ := Pipe.post_of h1 h3
  have := Pipe.post_mono e (show fuel ≤ fuel + k by omega)
  rw [hk _ (by omega)] at this
  cases this
  exact ⟨h3, hl⟩

/-- **C75** (quiet): the functions that the lifter and the passes that run by default make can be printed: every listing succeeds, no error is set, so that the run goes on as if nothing was
printed, whatever positions, flags and pointers there are (`E`).  `Form`: the function uses the frame pointer as C60 wants (the pass in front of code generation rejects or marks the uses). -/
theorem C75_quiet_partial {P : List Slot} (hw : WellShaped P) (hc : Closed P) (hlen : P.length ≤ 32768) (hu : ∀ sl ∈ P, ∀ i, decode sl = some i → Usual i) (E : Fn → Extra) (n fuel : Nat) (check : Bool)
    (hform : ∀ s t, Pipe.lift n fuel check P = .ok s → Pipe.passes fuel check s = .ok t → ∃ d, ∀ x, InBody t.1 x → Stack.Form t.1.sp d .plain (t.1.insn x)) :
    loudRun E n fuel check P = Pipe.autorun n fuel check P := by
  refine same_bind rfl fun s e => ?_
  obtain ⟨a, b⟩ := lift_quiet hw hc hlen hu e
  obtain ⟨p1, p2⟩ := loudPasses_ok a b E fuel check
  refine Eq.trans (b := (loudPasses E fuel check s).bind _) (by show (shows E s).bind _ = _; rw [shows_ok E a b]; rfl) ?_
  refine same_bind p1 fun t et => ?_
  obtain ⟨a2, b2⟩ := p2 t et
  refine same_bind (loud_ok (pass_code fun g hg => ?_)) fun _ _ => rfl
  obtain ⟨d, hd⟩ := hform s t e et
  obtain ⟨e1, _⟩ := a2.pre hd
  have := e1.symm.trans hg
  cases this
  exact a2.marked

/-- **C75** (quiet, lifting and the passes of epasstool): without any condition on the frame pointer. -/
theorem C75_quiet_passes {P : List Slot} (hw : WellShaped P) (hc : Closed P) (hlen : P.length ≤ 32768) (hu : ∀ sl ∈ P, ∀ i, decode sl = some i → Usual i) (E : Fn → Extra) (n fuel : Nat) (check : Bool) :
    (do let s ← Pipe.lift n fuel check P; let s ← shows E s; loudPasses E fuel check s) = (do let s ← Pipe.lift n fuel check P; Pipe.passes fuel check s) := by
  refine same_bind rfl fun s e => ?_
  obtain ⟨a, b⟩ := lift_quiet hw hc hlen hu e
  show (shows E s).bind _ = _
  rw [shows_ok E a b]
  exact (loudPasses_ok a b E fuel check).1

/-! ## What a listing says -/

/-- **C75** (same listing, partial): two functions as the lifter and the passes that run by default make them, with the same listing, do the same: from states that agree (the same values for
what has the same name) they return the same value, with the same memory, after the same calls, take the same number of steps, run for ever or are stuck together.
Missing: functions with instructions whose width is not shown (`Visible`); functions that are made by hand. -/
theorem C75_same_partial (hf : Code f) (hg : Code g) (hR : LaidOut f R) (hS : LaidOut g S) (vf : Visible f) (vg : Visible g) {t t' : Tags} (ht : tag f = some t) (ht' : tag g = some t')
    (hn : t.cnt ≤ 2 ^ 64 ∧ t.bcnt ≤ 2 ^ 64) (hn' : t'.cnt ≤ 2 ^ 64 ∧ t'.bcnt ≤ 2 ^ 64) {e e' : Extra} (he : Printable e) (he' : Printable e') {s : Str}
    (h1 : listing f R e = .ok s) (h2 : listing g S e' = .ok s) {W W' : IR.World} (hW : MatchWorld (SameName f t e g t' e') W W') {σ τ : IR.St} (hs : MatchSt (SameName f t e g t' e') σ τ) (k : Nat) :
    AlikeRes (runFn W f k σ) (runFn W' g k τ) := by
  have o := Code.opens hf hR ht vf hn.1 hn.2 he
  have o' := Code.opens hg hS ht' vg hn'.1 hn'.2 he'
  exact runFn_alike o o' (listing_inj o.toClear o'.toClear ht ht' h1 h2) hW hs k

/-! ## Listings of lifted programs -/

/-- The value of what has this name when a program starts. -/
noncomputable def startVal (σ : Bpf.St) (s : Str) : BitVec 64 :=
  if s = str "R10" then σ.reg 10 else if s = str "arg0" then σ.reg 1 else if s = str "arg1" then σ.reg 2 else if s = str "arg2" then σ.reg 3 else if s = str "arg3" then σ.reg 4 else if s = str "arg4" then σ.reg 5 else 0

/-- Values by name. -/
noncomputable def startOf (σ : Bpf.St) (f : Fn) (t : Tags) (e : Extra) : IR.St := ⟨fun x => startVal σ (nameOf f t e x), fun _ => 0, σ.mem, σ.trace.map Lift.cutEv⟩

theorem start_named {σ : Bpf.St} {t : Tags} {e : Extra} (h : ∀ x, x < 6 → f.insn x = Lift.init.insn x) : Lift.Start σ (startOf σ f t e) := by
  have n0 : nameOf f t e 0 = str "R10" := by unfold nameOf; rw [h 0 (by omega), if_pos (by decide)]; decide
  have n1 : nameOf f t e 1 = str "arg0" := by unfold nameOf; rw [h 1 (by omega), if_neg (by decide), if_pos (by decide)]; decide
  have n2 : nameOf f t e 2 = str "arg1" := by unfold nameOf; rw [h 2 (by omega), if_neg (by decide), if_pos (by decide)]; decide
  have n3 : nameOf f t e 3 = str "arg2" := by unfold nameOf; rw [h 3 (by omega), if_neg (by decide), if_pos (by decide)]; decide
  have n4 : nameOf f t e 4 = str "arg3" := by unfold nameOf; rw [h 4 (by omega), if_neg (by decide), if_pos (by decide)]; decide
  have n5 : nameOf f t e 5 = str "arg4" := by unfold nameOf; rw [h 5 (by omega), if_neg (by decide), if_pos (by decide)]; decide
  refine ⟨by simp only [startOf, n0]; rfl, fun r h1 h2 => ?_, rfl, rfl⟩
  match r, h1, h2 with
  | 1, _, _ => simp only [startOf, n1]; rfl
  | 2, _, _ => simp only [startOf, n2]; rfl
  | 3, _, _ => simp only [startOf, n3]; rfl
  | 4, _, _ => simp only [startOf, n4]; rfl
  | 5, _, _ => simp only [startOf, n5]; rfl

/-- What can be lifted as it is. -/
structure Plain (P : List Slot) : Prop where
  shape : WellShaped P
  closed : Closed P
  len : P.length ≤ 32768
  usual : ∀ sl ∈ P, ∀ i, decode sl = some i → Usual i
  clean : ∀ sl ∈ P, ∀ i, decode sl = some i → Clean i

theorem lift_parts {P : List Slot} (h : Plain P) {n fuel : Nat} {check : Bool} (e : Pipe.lift n fuel check P = .ok (f, R)) :
    Code f ∧ LaidOut f R ∧ (∀ x, x < 6 → f.insn x = Lift.init.insn x) ∧ ∀ {M W σ τ}, Lift.Agree M W → Lift.Start σ τ → Pipe.Lifts M P σ W f τ := by
  have hq := lift_quiet h.shape h.closed h.len h.usual e
  unfold Pipe.lift at e
  obtain ⟨f0, hf, e⟩ := Out.bind_eq_ok.1 e
  obtain ⟨g', h1, h2, h3⟩ := Pipe.lift_code h.shape h.closed h.len h.usual hf
  obtain ⟨k, R', hl, hk⟩ := Pipe.post_of h1 h3
  have := Pipe.post_mono e (show fuel ≤ fuel + k by omega)
  rw [hk _ (by omega)] at this
  cases this
  refine ⟨hq.1, hq.2, ?_, fun {M W σ τ} hW hs => ?_⟩
  · obtain ⟨C, g, s, hb, rfl⟩ := Pipe.lifted_parts h.shape h.len hf
    exact fun x hx => hb.books.low x hx
  · have := Pipe.lifts_lift h.shape h.len h.clean hf h.closed.1 hW hs
    have hr : ∀ m, runFn W (Pipe.withSuccs f0 g') m τ = runFn W f0 m τ := fun m => h2.run W m τ
    exact ⟨fun n x σ' e => by simpa only [hr] using this.returns n x σ' e, fun e m => by rw [hr]; exact this.forever e m, fun m x τ' e => this.only m x τ' (by rw [← hr]; exact e)⟩

/-- **C75** (programs, partial): two programs that are lifted to functions with the same listing do the same, on every machine whose helpers leave r1 to r5 alone, from every state: if the second
is never stuck it returns what the first returns, with the same memory, after the same calls with the same arguments, and runs for ever if the first does.
Missing: as in `C75_same_partial`; programs that the lifter does not read faithfully (C50). -/
theorem C75_programs_partial {P Q : List Slot} (hP : Plain P) (hQ : Plain Q) {n n' fuel fuel' : Nat} {check check' : Bool} (lP : Pipe.lift n fuel check P = .ok (f, R)) (lQ : Pipe.lift n' fuel' check' Q = .ok (g, S))
    (vf : Visible f) (vg : Visible g) {t t' : Tags} (ht : tag f = some t) (ht' : tag g = some t')
    (hn : t.cnt ≤ 2 ^ 64 ∧ t.bcnt ≤ 2 ^ 64) (hn' : t'.cnt ≤ 2 ^ 64 ∧ t'.bcnt ≤ 2 ^ 64) {e e' : Extra} (he : Printable e) (he' : Printable e') {s : Str}
    (h1 : listing f R e = .ok s) (h2 : listing g S e' = .ok s) {M : Bpf.World} (hM : ∃ W, Lift.Agree M W) (σ : Bpf.St) (hq : ∀ m, Bpf.run M Q m 0 σ ≠ .stuck) :
    Pipe.Rewrites M P σ M Q σ fun a b => b.mem = a.mem ∧ b.trace.map Lift.cutEv = a.trace.map Lift.cutEv := by
  obtain ⟨cf, lf, i1, L1⟩ := lift_parts hP lP
  obtain ⟨cg, lg, i2, L2⟩ := lift_parts hQ lQ
  obtain ⟨W0, hW0⟩ := hM
  let W : IR.World := ⟨W0.bpf, fun _ => 0, fun _ => 0⟩
  have hW : Lift.Agree M W := ⟨hW0.ldimm, hW0.ret, hW0.mem, hW0.clob⟩
  have A := L1 hW (start_named (σ := σ) (t := t) (e := e) i1)
  have B := L2 hW (start_named (σ := σ) (t := t') (e := e') i2)
  have key : ∀ k, AlikeRes (runFn W f k (startOf σ f t e)) (runFn W g k (startOf σ g t' e')) := fun k =>
    C75_same_partial (W := W) (W' := W) (σ := startOf σ f t e) (τ := startOf σ g t' e') cf cg lf lg vf vg ht ht' hn hn' he he' h1 h2 ⟨rfl, fun _ _ _ => rfl, fun _ _ _ => rfl⟩ ⟨fun x y h => congrArg (startVal σ) h.2.2, fun _ _ _ => rfl, rfl, rfl⟩ k
  refine Pipe.rewrites_of (fun j x σ' er => ?_) fun hf m => ?_
  · obtain ⟨m, τ', e1, s1⟩ := A.returns j x σ' er
    have k := key m
    rw [e1] at k
    generalize hr : runFn W g m (startOf σ g t' e') = r at k
    cases k with
    | done _ _ τ'' k1 k2 =>
      rcases B.only m x τ'' hr with ⟨j', σ'', er', s2⟩ | ⟨j', hj⟩
      · exact ⟨j', σ'', er', by rw [← s2.1, ← k1, s1.1], s2.2.symm.trans (k2.symm.trans s1.2)⟩
      · exact absurd hj (hq j')
  · have hg : ∀ k, ∃ b r τ', runFn W g k (startOf σ g t' e') = .running b r τ' := by
      intro k
      obtain ⟨b, r, τ', er⟩ := A.forever hf k
      have kk := key k
      rw [er] at kk
      generalize hr : runFn W g k (startOf σ g t' e') = r at kk
      cases kk with
      | running _ c _ r' _ τ'' _ _ => exact ⟨_, _, _, rfl⟩
    rcases Pipe.bpf_cases M Q σ with hc | ⟨j, x, σ', hc⟩ | ⟨j, hc⟩
    · exact hc m
    · obtain ⟨m', τ', er, _⟩ := B.returns j x σ' hc
      obtain ⟨b, r, τ1, er'⟩ := hg m'
      rw [er] at er'
      cases er'
    · exact absurd hc (hq j)

/-! ## What a listing does not say -/

/-- Nothing besides the function. -/
def ex0 : Extra := ⟨fun _ => 0, fun _ => none, fun _ _ => none, fun _ => none, fun _ => [], fun _ => []⟩

/-- The listing behind the lifter. -/
def listed (P : List Slot) : Out Str := do
  let s ← Pipe.lift 100 100 true P
  listing s.1 s.2 ex0

/-- `r0 = r1; r0 = -r0; exit`, in 64 or in 32 bits -/
def exNeg (wide : Bool) : List Slot := [⟨0xbf, 0, 1, 0, 0⟩, ⟨if wide then 0x87 else 0x84, 0, 0, 0, 0⟩, ⟨0x95, 0, 0, 0, 0⟩]

/-- `r0 = r1; r0 = htobe16(r0); exit`, or `htobe32` -/
def exSwap (wide : Bool) : List Slot := [⟨0xbf, 0, 1, 0, 0⟩, ⟨0xdc, 0, 0, 0, if wide then 32 else 16⟩, ⟨0x95, 0, 0, 0, 0⟩]

/-- A returned value. -/
def retOf (P : List Slot) (k : BitVec 64) : Option (BitVec 64) := (Lift.bpfRet Lift.exW P 10 (Lift.exσ k)).map (·.1)

/-- **C75** violated: the width of a negation is not shown (core/ir_helper.c:379-382): `-r0` in 64 and in 32 bits have the same listing, but do not do the same. -/
theorem C75_violated_neg : (listed (exNeg true)).isOk = true ∧ listed (exNeg true) = listed (exNeg false) ∧ retOf (exNeg true) 3 ≠ retOf (exNeg false) 3 ∧
    (retOf (exNeg true) 3).isSome = true ∧ (retOf (exNeg false) 3).isSome = true := by decide +kernel

/-- **C75** violated: the width of a byte swap is not shown (core/ir_helper.c:383-390). -/
theorem C75_violated_swap : (listed (exSwap true)).isOk = true ∧ listed (exSwap true) = listed (exSwap false) ∧ retOf (exSwap true) 3 ≠ retOf (exSwap false) 3 ∧
    (retOf (exSwap true) 3).isSome = true ∧ (retOf (exSwap false) 3).isSome = true := by decide +kernel

/-- A block with one instruction of one value, and a return of it. -/
def exOne (i : Insn) : Fn :=
  { insn := fun x => if x = 0 then { op := .reg, aux := 10 } else if x = 1 then i else { op := .ret, vals := [.insn 1] }
    users := fun _ => [], next := 3, parent := fun _ => 0, body := fun b => if b = 0 then [1, 2] else [], preds := fun _ => [], succs := fun _ => [], allBbs := [0], entry := 0, sp := 0, args := [] }

/-- The value it returns. -/
def oneRet (i : Insn) : Option (BitVec 64) :=
  match runFn Lift.exWI (exOne i) 10 (Lift.exτ 3) with
  | .done x _ => some x
  | _ => none

/-- **C75** violated for functions that passes make: the width of an assignment is not shown (core/ir_helper.c:482-484), nor are the upper bits of a constant of 32 bits
(core/ir_helper.c:110-114), nor that an offset of 0 is relative to the stack (core/ir_helper.c:213-220). -/
theorem C75_violated_made :
    (listing (exOne { op := .assign, vals := [.const .plain 0x100000003 .w64 .none], aluOp := .w32 }) [0] ex0 = listing (exOne { op := .assign, vals := [.const .plain 0x100000003 .w64 .none], aluOp := .w64 }) [0] ex0 ∧
      oneRet { op := .assign, vals := [.const .plain 0x100000003 .w64 .none], aluOp := .w32 } ≠ oneRet { op := .assign, vals := [.const .plain 0x100000003 .w64 .none], aluOp := .w64 }) ∧
    (listing (exOne { op := .add, vals := [.insn 0, .const .plain 0x100000003 .w32 .none], aluOp := .w64 }) [0] ex0 = listing (exOne { op := .add, vals := [.insn 0, .const .plain 3 .w32 .none], aluOp := .w64 }) [0] ex0 ∧
      oneRet { op := .add, vals := [.insn 0, .const .plain 0x100000003 .w32 .none], aluOp := .w64 } ≠ oneRet { op := .add, vals := [.insn 0, .const .plain 3 .w32 .none], aluOp := .w64 }) ∧
    listing (exOne { op := .loadraw, addr := .insn 0, addrKind := .rawoff, vrType := .t64 }) [0] ex0 = listing (exOne { op := .loadraw, addr := .insn 0, addrKind := .plain, vrType := .t64 }) [0] ex0 := by
  decide +kernel

/-- **C75** violated for functions that passes make: a constant of unknown width, a kind of wide constant or a width of an access that is unknown ends the run when it is printed
(core/ir_helper.c:114-118, 243-244, 311-313). -/
theorem C75_violated_loud :
    (listing (exOne { op := .neg, vals := [.const .plain 3 .unknown .none], aluOp := .w64 }) [0] ex0).isOk = true ∧ sets (exOne { op := .neg, vals := [.const .plain 3 .unknown .none], aluOp := .w64 }) [0] = true ∧
    listing (exOne { op := .loadimm, immKind := 7 }) [0] ex0 = .crit ∧ listing (exOne { op := .loadraw, addr := .insn 0, vrType := .unknown }) [0] ex0 = .crit := by
  decide +kernel

/-! ## Examples -/

def visibleB (f : Fn) : Bool :=
  (f.allBbs.flatMap f.body).all fun x => (((f.insn x).op != .neg) || ((f.insn x).aluOp == .w64)) && (((f.insn x).op != .htobe && (f.insn x).op != .htole) || ((f.insn x).aux == 64))

theorem visibleB_sound (h : visibleB f = true) : Visible f := by
  rintro x ⟨b, hb, hx⟩
  have := List.all_eq_true.1 h x (List.mem_flatMap.2 ⟨b, hb, hx⟩)
  simp only [Bool.and_eq_true, Bool.or_eq_true, bne_iff_ne, ne_eq, beq_iff_eq] at this
  refine ⟨fun ho => (this.1.resolve_left fun k => k ho), fun ho => this.2.resolve_left fun k => ?_⟩
  rcases ho with ho | ho
  · exact k.1 ho
  · exact k.2 ho

/-- `Lift.exL` with r7 in place of r6 -/
def exL7 : List Slot :=
  [⟨0xbf, 7, 1, 0, 0⟩, ⟨0xb7, 0, 0, 0, 0⟩, ⟨0x15, 7, 0, 3, 0⟩, ⟨0x0f, 0, 7, 0, 0⟩, ⟨0x07, 7, 0, 0, 0xffffffff⟩, ⟨0x05, 0, 0, 65532, 0⟩,
   ⟨0x7b, 10, 0, 65528, 0⟩, ⟨0x18, 2, 0, 0, 5⟩, ⟨0, 0, 0, 0, 0⟩, ⟨0x85, 0, 0, 0, 1⟩, ⟨0x95, 0, 0, 0, 0⟩]

def tagsOk (f : Fn) : Bool := match tag f with | some t => decide (t.cnt ≤ 2 ^ 64) && decide (t.bcnt ≤ 2 ^ 64) | none => false

/-- The conditions of the theorems hold for `exL` and `exL7`, programs with a loop that differ. -/
example : Plain Lift.exL ∧ Plain exL7 ∧ Lift.exL ≠ exL7 ∧ (listed Lift.exL).isOk = true ∧ listed Lift.exL = listed exL7 ∧
    Cg.onOk (Pipe.lift 100 100 true Lift.exL) (fun s => visibleB s.1 && tagsOk s.1) = true ∧ Cg.onOk (Pipe.lift 100 100 true exL7) (fun s => visibleB s.1 && tagsOk s.1) = true ∧ Printable ex0 ∧ (∃ W, Lift.Agree Lift.exW W) :=
  ⟨⟨Lift.wsB_sound (n := 12) (by decide +kernel), Pipe.closedB_sound (by decide +kernel), by decide, Pipe.usual_all (by decide +kernel), Lift.clean_all (by decide +kernel)⟩,
   ⟨Lift.wsB_sound (n := 12) (by decide +kernel), Pipe.closedB_sound (by decide +kernel), by decide, Pipe.usual_all (by decide +kernel), Lift.clean_all (by decide +kernel)⟩,
   by decide, by decide +kernel, by decide +kernel, by decide +kernel, by decide +kernel, fun _ => ⟨fun _ _ h => (by cases h), fun _ _ _ h => (by cases h), fun _ _ h => (by cases h)⟩, _, Lift.exAgree⟩

/-- What `exL` looks like. -/
example : listed Lift.exL = .ok (str ("b0 (flag: 0x0):\nb1 (flag: 0x0):\n  %0 = phi <b0 -> arg0> <b2 -> %0>\n  %1 = phi <b0 -> 0x0(32)> <b2 -> %3>\n  %2 = phi <b0 -> arg0> <b2 -> %4>\n  jeq(64) %2, 0x0(32), b2/b3\n" ++
    "b2 (flag: 0x0):\n  %3 = add(64) %1, %2, \n  %4 = add(64) %2, 0xffffffff(32), \n  ja b1\nb3 (flag: 0x0):\n  storeraw u64 R10+-8(+off) %1\n  %5 = loadimm(imm64) 0x5\n  %6 = call __built_in_func_1(%0, %5)\n  ret %6\n")) := by
  decide +kernel

/-- Its run with the listings. -/
example : Cg.onOk (loudRun (fun _ => ex0) 100 100 true Lift.exL) (fun _ => true) = true := by decide +kernel

end Verif.Show
