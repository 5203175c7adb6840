import Verif.Pipe.Kinds
import Verif.Pipe.LegalProps
import Verif.Pipe.DeadProps
import Verif.Pipe.FitProps
import Verif.Pipe.ClobberProps
/-!
# The optimised function of a program whose registers have kinds
-/
namespace Verif.Pipe
open Verif Verif.IR Verif.Lift
open Verif.Bpf (Slot Formed Closed Kind Typed FrameIn SlotReach)
open Verif.Phi (Via Traced Pruned)
open Verif.Edit (raw mapOps mapOps_op operands_mapOps)
open Verif.Stack (Form)

variable {f g : Fn} {A : Nat → Prop} {B : BitVec 16 → Prop}

/-- What is known of the instructions of a function. -/
def AllHeld (A : Nat → Prop) (B : BitVec 16 → Prop) (f : Fn) : Prop := ∀ x, InBody f x → Held A B (f.insn x) ∧
  ((f.insn x).op = .phi → (∀ v ∈ Edit.operands (f.insn x), Den A .any v) ∧ (A x → ∀ v ∈ Edit.operands (f.insn x), Den A .addr v))

theorem via_any (hf : AllHeld A B f) {v w : Val} (h : Via f v w) : Den A .any v → Den A .any w := by
  induction h with
  | refl _ => exact id
  | step h1 h2 h3 _ ih => exact fun _ => ih (((hf _ h1).2 h2).1 _ h3)

theorem via_addr (hf : AllHeld A B f) {v w : Val} (h : Via f v w) : Den A .addr v → Den A .addr w := by
  induction h with
  | refl _ => exact id
  | step h1 h2 h3 _ ih =>
    rintro ⟨y, e, _, hA⟩
    cases e
    exact ih (((hf _ h1).2 h2).2 hA _ h3)

theorem via_sp (h0 : ¬ InBody f 0) {w : Val} (h : Via f (.insn 0) w) : w = .insn 0 := by
  cases h with
  | refl _ => rfl
  | step h1 => exact absurd h1 h0

theorem via_const {k c ct b} {w : Val} (h : Via f (.const k c ct b) w) : w = .const k c ct b := by cases h; rfl

/-- Removing phis keeps it. -/
theorem held_traced (hf : AllHeld A B f) (h0 : ¬ InBody f 0) (ht : Traced f g) (ho : ∀ x, InBody g x → InBody f x) : AllHeld A B g := by
  intro x hx
  obtain ⟨φ, e, a⟩ := ht x hx
  obtain ⟨⟨h1, hn, h2⟩, h3⟩ := hf x (ho x hx)
  rw [e]
  refine ⟨⟨?_, hn, fun hr => ?_⟩, fun hp => ?_⟩
  · cases h1 with
    | other e1 e2 =>
      refine form_other (A := A) (fun v hv => ?_) e2.2
      rw [operands_mapOps, List.mem_map] at hv
      obtain ⟨u, hu, rfl⟩ := hv
      refine via_any hf (a u) ⟨fun e => ?_, e2.1 u hu⟩
      rw [Edit.refs_eq] at e1
      exact List.count_eq_zero.1 e1 (e ▸ hu)
    | access e1 e2 e3 e4 e5 e6 =>
      have hr : raw (f.insn x).op = true := by rcases e1 with e | e <;> rw [e] <;> rfl
      refine .access e1 ?_ e3 (fun v hv => ?_) e5 e6
      · have : φ (.insn 0) = .insn 0 := via_sp h0 (a _)
        simp only [mapOps, hr, if_true, e2, this]
      · simp only [mapOps, List.mem_map] at hv
        obtain ⟨u, hu, rfl⟩ := hv
        intro e'
        have := a u
        rw [e'] at this
        -- only the stack pointer stands for the stack pointer
        have key : ∀ {v w : Val}, Via f v w → w = .insn 0 → v = .insn 0 := by
          intro v w hv
          induction hv with
          | refl _ => exact id
          | step k1 k2 k3 _ ih => exact fun e => absurd (ih e) (((hf _ k1).2 k2).1 _ k3).1
        exact e4 u hu (key this rfl)
    | add c ct b e1 e2 e3 =>
      refine .add c ct b e1 e2 ?_
      simp only [mapOps, e3, List.map_cons, List.map_nil]
      rw [via_sp h0 (a _), via_const (a _)]
  · obtain ⟨y, e1, e2⟩ := h2 hr
    have hr' : raw (f.insn x).op = true := hr
    simp only [mapOps, hr', if_true, e1]
    rcases e2 with rfl | e2
    · rw [via_sp h0 (a _)]; exact ⟨0, rfl, .inl rfl⟩
    · by_cases hy : y = 0
      · subst hy; rw [via_sp h0 (a _)]; exact ⟨0, rfl, .inl rfl⟩
      · obtain ⟨z, e3, _, e4⟩ := via_addr hf (a _) ⟨y, rfl, hy, e2⟩
        exact ⟨z, e3, .inr e4⟩
  · obtain ⟨k1, k2⟩ := h3 hp
    constructor
    · intro v hv
      rw [operands_mapOps, List.mem_map] at hv
      obtain ⟨u, hu, rfl⟩ := hv
      exact via_any hf (a u) (k1 u hu)
    · intro hA v hv
      rw [operands_mapOps, List.mem_map] at hv
      obtain ⟨u, hu, rfl⟩ := hv
      exact via_addr hf (a u) (k2 hA u hu)

theorem pruned_sub {R : List Nat} (h : Pruned R f g) : ∀ x, InBody g x → InBody f x := by
  rintro x ⟨b, hb, hx⟩
  obtain ⟨D, hD, _⟩ := h.body
  rw [hD, List.mem_filter] at hx
  exact ⟨b, by rw [← h.allBbs]; exact hb, hx.1⟩

theorem cut_sub {R : List Nat} (h : Dead.Cut R f g) : ∀ x, InBody g x → InBody f x := by
  rintro x ⟨b, hb, hx⟩
  obtain ⟨D, hD, _⟩ := h.body
  rw [hD, List.mem_filter] at hx
  exact ⟨b, by rw [← h.allBbs]; exact hb, hx.1⟩

theorem held_pruned {R : List Nat} (hf : AllHeld A B f) (h0 : ¬ InBody f 0) (h : Pruned R f g) : AllHeld A B g := held_traced hf h0 h.traced (pruned_sub h)

theorem held_cut {R : List Nat} (hf : AllHeld A B f) (h : Dead.Cut R f g) : AllHeld A B g := fun x hx => by rw [h.insn]; exact hf x (cut_sub h x hx)

/-- The passes keep it. -/
theorem passes_held (h : Code f) {R : List Nat} (hl : LaidOut f R) {fuel : Nat} {check : Bool} {R' : List Nat} (e : passes fuel check (f, R) = .ok (g, R')) (hf : AllHeld A B f)
    (h0 : ¬ InBody f 0) : AllHeld A B g := by
  unfold passes at e
  obtain ⟨⟨m, R2⟩, e1, e⟩ := Out.bind_eq_ok.1 e
  obtain ⟨⟨m3, R3⟩, e2, e⟩ := Out.bind_eq_ok.1 e
  obtain ⟨⟨m4, R4⟩, e3, e⟩ := Out.bind_eq_ok.1 e
  unfold pass at e1 e2 e3 e
  obtain ⟨m1, a1, e1⟩ := Out.bind_eq_ok.1 e1
  obtain ⟨m2, a2, e2⟩ := Out.bind_eq_ok.1 e2
  obtain ⟨m3', a3, e3⟩ := Out.bind_eq_ok.1 e3
  obtain ⟨m4', a4, e4⟩ := Out.bind_eq_ok.1 e
  dsimp only at a1 a2 a3 a4
  obtain ⟨k1, m', b1, c1⟩ := removeTrivial_code h hl
  have a1' := Phi.removeTrivial_mono _ _ _ a1 (fuel + k1) (by omega)
  rw [b1 _ (by omega)] at a1'
  cases a1'
  have hm := h.pruned c1
  obtain ⟨k2, R2', l2, _, b2⟩ := hm.post
  have e1' := post_mono e1 (show fuel ≤ fuel + k2 by omega)
  rw [b2 _ (by omega)] at e1'
  cases e1'
  rw [hm.noEcall l2] at a2
  cases a2
  rw [e1] at e2
  cases e2
  rw [hm.noThrow l2] at a3
  cases a3
  rw [e1] at e3
  cases e3
  obtain ⟨k3, g', b3, c3⟩ := optimizeIr_code hm l2
  have a4' : optimizeIr (fuel + k3) R2 m = .ok m4' := by
    unfold optimizeIr at a4 ⊢
    obtain ⟨g1, d1, d2⟩ := Out.bind_eq_ok.1 a4
    rw [Dead.removeNoUser_mono _ _ _ d1 (fuel + k3) (by omega), Out.ok_bind, d2]
  rw [b3 _ (by omega)] at a4'
  cases a4'
  obtain ⟨k4, R4', _, _, b4⟩ := (hm.cut c3).post
  have e4' := post_mono e4 (show fuel ≤ fuel + k4 by omega)
  rw [b4 _ (by omega)] at e4'
  cases e4'
  exact held_cut (held_pruned hf h0 c1) c3

/-- The lifted function of a program whose registers have kinds. -/
theorem lift_held {P : List Slot} (hw : Bpf.WellShaped P) (hlen : P.length ≤ 32768) {T : Nat → Nat → Kind} (hT : Typed P T) (hB : FrameIn B P) {n : Nat} (hf : Lift.lift n P = .ok f) :
    (∃ A, AllHeld A B f) ∧ ¬ InBody f 0 := by
  obtain ⟨C, g, s, h, rfl⟩ := lifted_parts hw hlen hf
  exact ⟨⟨Aim C g T, fun x ⟨b, _, hx⟩ => lifted_held h (typed_zero hw.legal hT) (frameIn_zero hw.legal hB) hx⟩, fun h0 => by have := h.body6 h0; omega⟩

theorem opt_held {P : List Slot} (hP : Fair P) {T : Nat → Nat → Kind} (hT : Typed P T) (hB : FrameIn B P) {n fuel : Nat} {check : Bool} {s : Fn × List Nat} {R : List Nat}
    (e1 : lift n fuel check P = .ok s) (e2 : passes fuel check s = .ok (g, R)) : ∃ A, AllHeld A B g := by
  obtain ⟨f1, R1⟩ := s
  unfold lift at e1
  obtain ⟨f, hf, e1⟩ := Out.bind_eq_ok.1 e1
  obtain ⟨g', h1, -, h3⟩ := lift_code hP.shaped hP.closed hP.len hP.usual hf
  obtain ⟨k, R', hl, hk⟩ := post_of h1 h3
  have e1' := post_mono e1 (show fuel ≤ fuel + k by omega)
  rw [hk _ (by omega)] at e1'
  cases e1'
  obtain ⟨⟨A, hA⟩, h0⟩ := lift_held hP.shaped hP.len hT hB hf
  exact ⟨A, passes_held (A := A) h3 hl e2 hA h0⟩

theorem AllHeld.access (h : AllHeld A B g) : NoFixedAccess g := fun x hx ho => by
  obtain ⟨y, hy, _⟩ := (h x hx).1.base (by rcases ho with e | e <;> rw [e] <;> rfl)
  exact ⟨y, hy⟩

theorem NoFixedAccess.store (h : NoFixedAccess g) : NoFixedStore g := fun x hx ho => h x hx (.inl ho)

theorem run_held {P : List Slot} (hP : Fair P) {T : Nat → Nat → Kind} (hT : Typed P T) (hB : FrameIn B P) {n fuel : Nat} {check : Bool} {R : Run} (e : autorun n fuel check P = .ok R) :
    R.opt.sp = 0 ∧ ∃ A, AllHeld A B R.opt := by
  have hsp := (autorun_parts hP.shaped hP.closed hP.len hP.usual hP.clean e).2.2.1
  unfold autorun at e
  obtain ⟨s1, e1, e⟩ := Out.bind_eq_ok.1 e
  obtain ⟨⟨f2, R2⟩, e2, e⟩ := Out.bind_eq_ok.1 e
  obtain ⟨⟨f3, R3⟩, e3, e⟩ := Out.bind_eq_ok.1 e
  obtain ⟨r, e4, e⟩ := Out.bind_eq_ok.1 e
  cases e
  exact ⟨hsp, opt_held hP hT hB e1 e2⟩

theorem frameIn_true (P : List Slot) : FrameIn (fun _ => True) P := fun _ _ _ _ _ _ => trivial

/-- The optimised function uses the frame pointer in the usual forms and accesses computed addresses. -/
theorem run_usual {P : List Slot} (hP : Fair P) {T : Nat → Nat → Kind} (hT : Typed P T) {n fuel : Nat} {check : Bool} {R : Run} (e : autorun n fuel check P = .ok R) :
    (∀ x, InBody R.opt x → Form R.opt.sp 0 .plain (R.opt.insn x)) ∧ NoFixedAccess R.opt := by
  obtain ⟨h1, A, h2⟩ := run_held hP hT (frameIn_true P) e
  exact ⟨fun x hx => by rw [h1]; exact (h2 x hx).1.form, h2.access⟩

/-- **C80** for whole runs, with conditions on the program only.  For every program that a loader accepts (`Fair`) and whose registers have kinds (`Typed`: the frame pointer is copied, has constants
added or is the base of accesses written with `r10`; the bases of other accesses are computed): if the run ends without an error and the new program has at most 32768 slots, then every slot of it is
an instruction or the second half of a wide load, all wide loads are complete, all jumps lead to the start of an instruction, and control cannot run past the end. -/
theorem C80_typed_partial {P : List Slot} (hP : Fair P) {T : Nat → Nat → Kind} (hT : Typed P T) {n fuel : Nat} {check : Bool} {R : Run} (e : autorun n fuel check P = .ok R)
    (hlen : R.res.code.length ≤ 32768) : Formed R.res.code ∧ Closed R.res.code :=
  (C80_run_partial hP).1 R e (run_usual hP hT e).1 (run_usual hP hT e).2 hlen

/-- **C81** for whole runs, with conditions on the program only: control can reach every slot of the new program. -/
theorem C81_typed_partial {P : List Slot} (hP : Fair P) {T : Nat → Nat → Kind} (hT : Typed P T) {n fuel : Nat} {check : Bool} {R : Run} (e : autorun n fuel check P = .ok R)
    (hlen : R.res.code.length ≤ 32768) : ∀ p < R.res.code.length, SlotReach R.res.code p :=
  (C81_run_partial hP).1 R e (run_usual hP hT e).1 (run_usual hP hT e).2.store hlen

/-- **C76** for whole runs, with conditions on the program only: for every program that a loader accepts, whose registers have kinds and that the lifter accepts, the run ends with bytecode or an
error, with the checker on or off. -/
theorem C76_typed_partial {P : List Slot} (hP : Fair P) {T : Nat → Nat → Kind} (hT : Typed P T) {n : Nat} {f : Fn} (hf : Lift.lift n P = .ok f) :
    ∃ k, ∀ fuel, k ≤ fuel → ∀ check, autorun n fuel check P = .err ∨ ∃ A, autorun n fuel check P = .ok A := by
  obtain ⟨g, R, k, h1, h2⟩ := C76_run_partial hP.shaped hP.closed hP.len hP.usual hP.clean hf
  obtain ⟨f', R', k', g1, R1, h3, -, -, -, -, -, hsp, -⟩ := passes_lift hP.shaped hP.closed hP.len hP.usual hP.clean hf
  obtain ⟨e1, e2⟩ := h3 (k + k') (by omega) true
  have e3 := h1 (k + k') (by omega) true
  rw [e1, Out.ok_bind, e2] at e3
  cases e3
  obtain ⟨A, hA⟩ := opt_held hP hT (frameIn_true P) e1 e2
  exact h2 (fun x hx => by rw [hsp]; exact (hA x hx).1.form) hA.access.store

/-- **C76** for whole runs, from the program alone: if moreover all its registers exist, it has no unknown instructions and reads no register before it is set, then it is accepted by the lifter too. -/
theorem C76_accepted_partial {P : List Slot} (hP : Fair P) {T : Nat → Nat → Kind} (hT : Typed P T) (hr : Bpf.KnownRegs P) (hs : ¬ Bpf.Unknown P) (hi : ¬ Bpf.ReadsUnset P) :
    ∃ n0, ∀ n, n0 ≤ n → ∃ k, ∀ fuel, k ≤ fuel → ∀ check, autorun n fuel check P = .err ∨ ∃ A, autorun n fuel check P = .ok A := by
  obtain ⟨n0, h0⟩ := C61_passes hP hr hs hi
  refine ⟨n0, fun n hn => ?_⟩
  obtain ⟨g, R, k, h1, _⟩ := h0 n hn
  have e := h1 k (Nat.le_refl _) true
  obtain ⟨s, e1, -⟩ := Out.bind_eq_ok.1 e
  unfold lift at e1
  obtain ⟨f, hf, -⟩ := Out.bind_eq_ok.1 e1
  exact C76_typed_partial hP hT hf

/-- **C73** for whole runs, with a condition on the use of the frame pointer in the program instead of the optimised function. -/
theorem C73_typed_partial {P : List Slot} (h : Fair P) {T : Nat → Nat → Kind} (hT : Typed P T) (hno : ¬ Bpf.ReadsStale P) {n fuel : Nat} {check : Bool} {A : Run} (e : autorun n fuel check P = .ok A)
    (hoff : A.res.al.off = 0) (hone : Fit.OneArg A.fn) (hphi : Loc.Smooth A.fn A.blocks (Lower.own A.fn)) (hp : ∀ b ∈ A.res.blocks, ∀ i ∈ b.insns, Emit.Plain i) (hout : A.res.code.length ≤ 32768)
    (M N : Bpf.World) (hM : Alike M N) (σ μ : Bpf.St) (hs : StartAlike σ μ) :
    Rewrites M P σ N A.res.code μ (fun σ μ => μ.mem = σ.mem ∧ μ.trace.map Flatten.cut = σ.trace.map Flatten.cut) :=
  C73_autorun_partial h hno e hoff (run_usual h hT e).1 hone hphi hp hout M N hM σ μ hs

/-- Offsets into the stack of 512 bytes that the kernel gives a program. -/
def InStack (off : BitVec 16) : Prop := -512 ≤ off.toInt ∧ off.toInt < 0

theorem form_depth {i : Insn} {d : BitVec 16} (h : Held A InStack i) (hd : -32256 ≤ d.toInt) : Form 0 d .plain i := by
  cases h.form with
  | other h1 h2 => exact .other h1 h2
  | add c ct b h1 h2 h3 => exact .add c ct b h1 h2 h3
  | access h1 h2 h3 h4 _ _ =>
    have hr : raw i.op = true := by rcases h1 with e | e <;> rw [e] <;> rfl
    obtain ⟨k1, k2⟩ := h.near hr h3
    have := BitVec.toInt_lt (x := d)
    exact .access h1 h2 h3 h4 (by omega) (by omega)

/-- **C62** (and C60) for whole runs, with conditions on the use of the frame pointer in the program instead of the optimised function: the program accesses its stack through `r10` inside of
the 512 bytes that it has, and the stack is moved by at most 32256 bytes. -/
theorem C62_typed_partial {P : List Slot} (h : Fair P) {T : Nat → Nat → Kind} (hT : Typed P T) (hB : FrameIn InStack P) (hno : ¬ Bpf.ReadsStale P) {n fuel : Nat} {check : Bool} {A : Run}
    (e : autorun n fuel check P = .ok A) (hdep : -32256 ≤ A.res.depth.toInt)
    (hreg : Compile.Regular A.fn A.blocks A.res) (hoff : -2 ^ 31 ≤ A.res.al.off) (hp : ∀ b ∈ A.res.blocks, ∀ i ∈ b.insns, Emit.Plain i) (hout : A.res.code.length ≤ 32768)
    (M N : Bpf.World) (W : IR.World) (hM : Bpf.Helps M W) (p : BitVec 64) (hN : Flatten.Serves A.res.out.f A.blocks A.res.out.pos p N W)
    (hwid : ∀ a, InBody A.res.al.s.f a → A.res.al.s.f.insn a = Edit.mkAlloc .t64 → W.wid a = 8) (σ μ : Bpf.St)
    (hb : Enters p (A.res.depth.signExtend 64) (Flatten.InFrame A.res.out.f A.blocks A.res.out.pos p) σ μ)
    (hs : Flatten.Sane W A.res.out.f A.blocks A.res.out.pos p (Compile.startAt A.res.out.f A.blocks A.res.out.pos p (initial σ) μ)) :
    Rewrites M P σ N A.res.code μ (SameOutside (Flatten.InFrame A.res.out.f A.blocks A.res.out.pos p)) := by
  obtain ⟨h1, D, h2⟩ := run_held h hT hB e
  exact C62_autorun_partial h hno e (fun x hx => by rw [h1]; exact form_depth (h2 x hx).1 hdep) hreg hoff hp hout M N W hM p hN hwid σ μ hb hs

/-! ## The hypotheses hold for a program that uses its stack and loads through a register that is set on two paths -/

/-- Kinds from a table: a row of registers 0 to 9 for every slot; what is not in the table is `any`. -/
def kindsOf (K : List (List Kind)) (p r : Nat) : Kind := if r = 10 then .frame else if r < 10 then (K.getD p []).getD r .any else .any

/-- A test for `Typed`. -/
def typedB (P : List Slot) (K : List (List Kind)) : Bool :=
  ((List.range 10).all fun r => kindsOf K 0 r != .frame) &&
  (List.range P.length).all fun p => match P[p]? with
    | none => true
    | some s =>
      (match Bpf.decode s with
        | none => true
        | some i => Bpf.fits (kindsOf K p) i &&
          ((match i with
            | .jcc _ _ _ _ _ => true
            | .exit => true
            | _ => false) || (Bpf.jumpOffset i).isSome → (List.range 10).all fun r => kindsOf K (p + 1) r != .frame) &&
          (match Bpf.jumpOffset i with
            | none => true
            | some off => (List.range 10).all fun r => kindsOf K (((p : Int) + 1 + off.toInt).toNat) r != .frame)) &&
      (Bpf.flow P p).all fun q => (List.range 10).all fun r => (Bpf.after (kindsOf K p) (Bpf.decode s) r).le (kindsOf K q.toNat r)

theorem kinds_far {K : List (List Kind)} {p : Nat} (h : ((List.range 10).all fun r => kindsOf K p r != .frame) = true) : ∀ r, r ≠ 10 → kindsOf K p r ≠ .frame := by
  intro r hr
  by_cases h10 : r < 10
  · simpa using List.all_eq_true.1 h r (List.mem_range.2 h10)
  · unfold kindsOf
    rw [if_neg hr, if_neg h10]
    simp

theorem typed_of_check {P : List Slot} {K : List (List Kind)} (h : typedB P K = true) : Typed P (kindsOf K) := by
  unfold typedB at h
  rw [Bool.and_eq_true] at h
  obtain ⟨h0, h⟩ := h
  have key : ∀ (p : Nat) (s : Slot), P[p]? = some s → p ∈ List.range P.length := fun p s hs => List.mem_range.2 (List.getElem?_eq_some_iff.1 hs).1
  refine ⟨fun p => by simp [kindsOf], fun p hp => ?_, fun p s i hs hd => ?_, fun p s q hs hq r hr => ?_⟩
  · rcases hp with rfl | ⟨p', s, i, h1, h2, h3⟩
    · exact kinds_far h0
    · have := List.all_eq_true.1 h p' (key p' s h1)
      rw [h1] at this
      dsimp only at this
      rw [h2] at this
      dsimp only at this
      simp only [Bool.and_eq_true, decide_eq_true_eq] at this
      obtain ⟨⟨⟨_, k1⟩, k2⟩, _⟩ := this
      rcases h3 with ⟨off, h4, h5⟩ | ⟨w, c, d, src, off, rfl, rfl⟩ | ⟨rfl, rfl, _⟩
      · rw [h4] at k2
        dsimp only at k2
        rw [show ((p' : Int) + 1 + off.toInt).toNat = p by omega] at k2
        exact kinds_far k2
      · exact kinds_far (k1 rfl)
      · exact kinds_far (k1 rfl)
  · have := List.all_eq_true.1 h p (key p s hs)
    rw [hs] at this
    dsimp only at this
    rw [hd] at this
    dsimp only at this
    simp only [Bool.and_eq_true] at this
    exact this.1.1.1
  · have := List.all_eq_true.1 h p (key p s hs)
    rw [hs] at this
    dsimp only at this
    rw [Bool.and_eq_true] at this
    have := List.all_eq_true.1 (List.all_eq_true.1 this.2 _ hq) r (List.mem_range.2 hr)
    simpa using this

/-- `*(u64 *)(r10 - 8) = r1; r2 = r1; if r1 == 0 goto +2; r2 = r10; r2 += -8; r0 = *(u64 *)(r2 + 0); exit`. -/
def exPaths : List Slot := [⟨0x7b, 10, 1, 0xfff8, 0⟩, ⟨0xbf, 2, 1, 0, 0⟩, ⟨0x15, 1, 0, 2, 0⟩, ⟨0xbf, 2, 10, 0, 0⟩, ⟨0x07, 2, 0, 0, 0xfffffff8⟩, ⟨0x79, 0, 2, 0, 0⟩, ⟨0x95, 0, 0, 0, 0⟩]

def exKinds : List (List Kind) := [[.any, .addr], [.any, .addr], [.any, .addr, .addr], [.any, .addr, .addr], [.any, .addr, .frame], [.any, .addr, .addr], [.addr]]

theorem inStack_of_check {P : List Slot} (h : P.all (fun s => match (Bpf.decode s).bind Bpf.frameOff with | some off => decide (-512 ≤ off.toInt) && decide (off.toInt < 0) | none => true) = true) :
    FrameIn InStack P := fun s hs i off hd ho => by
  have := List.all_eq_true.1 h s hs
  rw [hd, Option.bind_some, ho] at this
  simpa [InStack] using this

theorem exPaths_typed : Fair exPaths ∧ Typed exPaths (kindsOf exKinds) ∧ FrameIn InStack exPaths := by
  exact ⟨fair_of_check (by decide +kernel), typed_of_check (by decide +kernel), inStack_of_check (by decide +kernel)⟩

example : ∃ A, autorun 100 100 true exPaths = .ok A ∧ (∀ x, InBody A.opt x → Form A.opt.sp 0 .plain (A.opt.insn x)) ∧ NoFixedAccess A.opt ∧ Formed A.res.code ∧ Closed A.res.code ∧
    (∀ p < A.res.code.length, SlotReach A.res.code p) ∧ 6 < A.res.code.length := by
  have h : Cg.onOk (autorun 100 100 true exPaths) (fun A => decide (A.res.code.length ≤ 32768) && decide (6 < A.res.code.length)) = true := by decide +kernel
  obtain ⟨A, e, h⟩ := Cg.of_onOk h
  simp only [Bool.and_eq_true, decide_eq_true_eq] at h
  obtain ⟨h1, h2, -⟩ := exPaths_typed
  have k := run_usual h1 h2 e
  have k' := C80_typed_partial h1 h2 e h.1
  exact ⟨A, e, k.1, k.2, k'.1, k'.2, C81_typed_partial h1 h2 e h.1, h.2⟩

/-- The program of `C80_violated` has no kinds: its load is from a register that may hold a constant. -/
theorem exByte_untyped : ¬ ∃ T, Typed exByte T := by
  rintro ⟨T, h⟩
  have h1 := h.step 0 ⟨0xb7, 1, 0, 0, 5⟩ 1 rfl (by decide +kernel) 1 (by omega)
  have h2 := h.fit 1 ⟨0x71, 0, 1, 0, 0⟩ (.ldx false .b 0 1 0) rfl (by decide +kernel)
  rw [show Bpf.after (T 0) (Bpf.decode ⟨0xb7, 1, 0, 0, 5⟩) 1 = .any from rfl] at h1
  rw [fits_ldx] at h2
  have h3 : T 1 1 = .addr := by simpa using h2
  rw [h3] at h1
  cases h1

/-- From the program alone: a run on `exL`, a program with a loop and a call, or on `exPaths` never crashes. -/
example : (∃ n0, ∀ n, n0 ≤ n → ∃ k, ∀ fuel, k ≤ fuel → ∀ check, autorun n fuel check Lift.exL = .err ∨ ∃ A, autorun n fuel check Lift.exL = .ok A) ∧
    (∃ n0, ∀ n, n0 ≤ n → ∃ k, ∀ fuel, k ≤ fuel → ∀ check, autorun n fuel check exPaths = .err ∨ ∃ A, autorun n fuel check exPaths = .ok A) :=
  ⟨C76_accepted_partial (fair_of_check (by decide +kernel)) (typed_of_check (K := []) (by decide +kernel)) (Lift.known_of_check (by decide +kernel)) (Lift.unknown_of_check (by decide +kernel))
    (Lift.init_of_check (K := Lift.exLK) (by decide +kernel)),
   C76_accepted_partial exPaths_typed.1 exPaths_typed.2.1 (Lift.known_of_check (by decide +kernel)) (Lift.unknown_of_check (by decide +kernel))
    (Lift.init_of_check (K := [[1, 10], [1, 10], [1, 2, 10], [1, 2, 10], [1, 2, 10], [1, 2, 10], [0]]) (by decide +kernel))⟩

/-- On the same machine, from any state, the bytecode that a run makes of `exL` does the same. -/
example : ∃ A, autorun 100 100 true Lift.exL = .ok A ∧
    ∀ σ, Rewrites Flatten.exM Lift.exL σ Flatten.exM A.res.code σ (fun σ μ => μ.mem = σ.mem ∧ μ.trace.map Flatten.cut = σ.trace.map Flatten.cut) := by
  have h : Cg.onOk (autorun 100 100 true Lift.exL) fitB = true := by decide +kernel
  obtain ⟨A, e, h⟩ := Cg.of_onOk h
  simp only [fitB, Bool.and_eq_true, decide_eq_true_eq] at h
  obtain ⟨⟨⟨⟨⟨h1, h2⟩, h3⟩, h4⟩, h5⟩, h6⟩ := h
  exact ⟨A, e, fun σ => C73_typed_partial (fair_of_check (by decide +kernel)) (typed_of_check (K := []) (by decide +kernel))
    (stale_of_check (K := [[], [], [], [], [], [], [], [], [], [], [1, 2, 3, 4, 5]]) (by decide +kernel)) e h1 (Fit.one_of_check h3) (Fit.smooth_of_check h4)
    (fun b hb i hi => Emit.plain_of_check (List.all_eq_true.1 (List.all_eq_true.1 h5 b hb) i hi)) h6 _ _ exM_alike σ σ ⟨rfl, fun _ _ _ => rfl, rfl, rfl⟩⟩

/-- The same with its frame, on a machine whose helpers spoil r1 to r5. -/
example : ∃ A, autorun 100 100 true Lift.exL = .ok A ∧
    Rewrites Flatten.exM Lift.exL (entry (A.res.depth.signExtend 64)) Flatten.exM A.res.code (entry 0) (SameOutside (Flatten.InFrame A.res.out.f A.blocks A.res.out.pos Compile.compP)) := by
  have h : Cg.onOk (autorun 100 100 true Lift.exL) (fun A => runB A && decide (-32256 ≤ A.res.depth.toInt)) = true := by decide +kernel
  obtain ⟨A, e, h⟩ := Cg.of_onOk h
  rw [Bool.and_eq_true, decide_eq_true_eq] at h
  obtain ⟨h1, h2, h3, h4, h5, h6, h7, h8⟩ := rewrites_conditions (fair_of_check (by decide +kernel)) e h.1
  have hB : FrameIn InStack Lift.exL := inStack_of_check (by decide +kernel)
  exact ⟨A, e, C62_typed_partial (fair_of_check (by decide +kernel)) (typed_of_check (K := []) (by decide +kernel)) hB
    (stale_of_check (K := [[], [], [], [], [], [], [], [], [], [], [1, 2, 3, 4, 5]]) (by decide +kernel)) e h.2 h2 h3 h4 h5 _ _ _ (exM_helps A.res) Compile.compP h6 (fun _ _ _ => rfl) _ _ h7 h8⟩

end Verif.Pipe
