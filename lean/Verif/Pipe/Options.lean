import Verif.Pipe.Total
import Verif.Lift.Back
import Verif.Spec.Limited
import Verif.Count.Success
import Verif.Count.KeepBound
/-!
# C69: lifted programs and the passes that are off by default
-/
namespace Verif.Pipe
open Verif Verif.IR Verif.Bpf
open Verif.Edit (operands)
open Verif.Count (relabel Follows total visited jumpsIn Leaves)
open Verif.Flatten (graphOf)
open Verif.Lift (Clean)

variable {f : Fn}

/-! ## What the passes ask for -/

theorem Code.wired (h : Code f) : Wired f := by
  intro b hb x hx
  have hl : ∀ {o : Op}, (f.insn x).op = o → ends o = true → SuccsOk f b x := by
    intro o ho he
    obtain ⟨A, B, e⟩ := List.append_of_mem hx
    have hB := h.last b A x B e (by rw [ho]; exact he)
    exact (h.route b hb).jumps (h.ok.tidy.nodup b hb) e (by rw [ho]; exact he) hB
  refine ⟨fun ho => ?_, fun ho => ?_⟩
  · have := hl ho rfl
    unfold SuccsOk at this
    simp only [ho] at this
    rw [this]
    simp [Norm.Op.condJmp]
  · obtain ⟨c1, c2, c3, c4⟩ := cond_ends ho
    have := hl rfl c1
    unfold SuccsOk at this
    dsimp only at this
    rw [if_neg (by rintro (e | e); exact c3 e; exact c4 e), if_pos ho] at this
    rw [this]
    simp

theorem Code.shape (h : Code f) : Shape f where
  tidy := h.ok.tidy
  graph := h.graph
  wired := h.wired
  entry := h.entry
  phis := fun b _ => h.ok.phis b
  last := fun b _ => h.last b
  labels := fun b hb x hx _ => (h.insn x ⟨b, hb, hx⟩).labels

theorem Code.input (h : Code f) {R : List Nat} (hl : LaidOut f R) : Count.Input R f where
  shape := h.shape
  nodup := hl.nodup
  blocks := fun b hb => (hl.mem b).1 hb
  all := fun b hb => (hl.mem b).2 (Count.Conn.mem h.shape hb)
  entry := h.first
  noPhis := by
    unfold phisOf
    cases hb : f.body f.entry with
    | nil => rfl
    | cons x xs =>
      have := h.ssa.entry x (by rw [hb]; simp)
      rw [List.takeWhile_cons, if_neg (by simpa using this)]

theorem Code.leaves (h : Code f) : ∀ b ∈ f.allBbs, Leaves f b := by
  intro b hb
  cases h.route b hb with
  | fall c h1 h2 => exact .inr ⟨c, h2⟩
  | ja x pre h1 h2 h3 => exact .inr ⟨_, h3⟩
  | cond x pre h1 h2 h3 => exact .inl ⟨x, by rw [h1, List.getLast?_append]; rfl, by rw [Count.ends_of_isJmp]; exact (cond_ends h2).1⟩
  | ret x pre h1 h2 h3 => exact .inl ⟨x, by rw [h1, List.getLast?_append]; rfl, by rw [h2]; rfl⟩

theorem Code.noCount (h : Code f) : Count.NoCount f := by
  intro b hb x hx k c ct hm
  rcases (h.insn x ⟨b, hb, hx⟩).vals _ hm with ⟨k', c', e⟩ | ⟨y, e, _⟩ <;> cases e

/-- Every cycle has a jump: a block without one stands in front of its successor. -/
theorem Code.cycle (h : Code f) {R : List Nat} (hl : LaidOut f R) {C : List Nat} (hC : Count.Cyclic f C) (hcn : ∀ c ∈ C, Conn f c) :
    ∃ c ∈ C, ∃ x ∈ f.body c, Edit.isJmp (f.insn x).op = true := by
  apply Classical.byContradiction
  intro hn
  have key : ∀ p ∈ C, ∀ c, p ∈ f.preds c → c ∈ C → R.idxOf p < R.idxOf c := by
    intro p hp c hpc hc
    have hpm := Count.Conn.mem h.shape (hcn p hp)
    have hcm := Count.Conn.mem h.shape (hcn c hc)
    have hfall : ∀ x ∈ f.body p, ends (f.insn x).op = false := by
      intro x hx
      cases he : ends (f.insn x).op with
      | false => rfl
      | true => exact absurd ⟨p, hp, x, hx, by rw [Count.ends_of_isJmp]; exact he⟩ hn
    obtain ⟨t, ht⟩ := (h.route p hpm).fallOnly hfall
    have hs : c ∈ f.succs p := (h.graph.sym p hpm c hcm).2 hpc
    rw [ht] at hs
    have : c = t := by simpa using hs
    subst this
    obtain ⟨A, B, e⟩ := hl.next p ((hl.mem p).2 hpm) c (.inl ⟨ht, by
      rcases last_fall hfall with e | e <;> simp [graphOf, Layout.Blk.jaTo, e]⟩)
    have hnd := hl.nodup
    rw [e] at hnd ⊢
    have hpA : p ∉ A := fun hm => (List.nodup_append.1 hnd).2.2 p hm p (by simp) rfl
    have hcA : c ∉ A := fun hm => (List.nodup_append.1 hnd).2.2 c hm c (by simp) rfl
    have hne : p ≠ c := by
      have := (List.nodup_cons.1 (List.nodup_append.1 hnd).2.1).1
      intro e; exact this (by simp [e])
    rw [List.idxOf_append_of_notMem hpA, List.idxOf_append_of_notMem hcA, List.idxOf_cons_self, List.idxOf_cons_ne _ hne]
    omega
  have none : ∀ n c, c ∈ C → R.idxOf c ≤ n → False := by
    intro n
    induction n with
    | zero =>
      intro c hc hn
      obtain ⟨p, hp, hpc⟩ := hC.pred c hc
      have := key p hp c hpc hc
      omega
    | succ n ih =>
      intro c hc hn
      obtain ⟨p, hp, hpc⟩ := hC.pred c hc
      have := key p hp c hpc hc
      exact ih p hp (by omega)
  obtain ⟨c, hc⟩ := List.exists_mem_of_ne_nil _ hC.nonempty
  exact none _ c hc (Nat.le_refl _)

/-- There is a jump: the last block does not fall through. -/
theorem Code.jumps (h : Code f) {R : List Nat} (hl : LaidOut f R) : Count.jumps R f ≠ [] := by
  have hne : R ≠ [] := by intro e; have := hl.first; rw [e] at this; cases this
  obtain ⟨A, b, e⟩ : ∃ A b, R = A ++ [b] := ⟨_, _, (List.dropLast_append_getLast hne).symm⟩
  have hb : b ∈ R := by rw [e]; simp
  have hbm := (hl.mem b).1 hb
  have hx : ∃ x ∈ f.body b, ends (f.insn x).op = true := by
    apply Classical.byContradiction
    intro hn
    have hfall : ∀ x ∈ f.body b, ends (f.insn x).op = false := by
      intro x hx
      cases he : ends (f.insn x).op with
      | false => rfl
      | true => exact absurd ⟨x, hx, he⟩ hn
    obtain ⟨t, ht⟩ := (h.route b hbm).fallOnly hfall
    obtain ⟨C, D, e2⟩ := hl.next b hb t (.inl ⟨ht, by rcases last_fall hfall with e | e <;> simp [graphOf, Layout.Blk.jaTo, e]⟩)
    have hnd := hl.nodup
    have h1 : R.idxOf b = A.length := by
      rw [e] at hnd ⊢
      have : b ∉ A := fun hm => (List.nodup_append.1 hnd).2.2 b hm b (by simp) rfl
      rw [List.idxOf_append_of_notMem this]; simp
    have h2 : R.idxOf b = C.length := by
      rw [e2] at hnd ⊢
      have : b ∉ C := fun hm => (List.nodup_append.1 hnd).2.2 b hm b (by simp) rfl
      rw [List.idxOf_append_of_notMem this]; simp
    have h3 := congrArg List.length e
    have h4 := congrArg List.length e2
    simp at h3 h4
    omega
  obtain ⟨x, hx, he⟩ := hx
  intro hj
  have : x ∈ Count.jumps R f := Count.mem_jumps.2 ⟨b, hb, hx, by rw [Count.ends_of_isJmp]; exact he⟩
  rw [hj] at this
  cases this

/-! ## What the new function does -/

theorem ir_ends_unique {W : IR.World} {f : Fn} {n m : Nat} {τ : IR.St} {x a b} (h1 : runFn W f n τ = .done x a) (h2 : runFn W f m τ = .thrown b) : False := by
  rcases Nat.le_total n m with hle | hle
  · obtain ⟨d, rfl⟩ := Nat.exists_eq_add_of_le hle
    unfold runFn at h1 h2
    rw [Lift.run_add, h1] at h2
    cases h2
  · obtain ⟨d, rfl⟩ := Nat.exists_eq_add_of_le hle
    unfold runFn at h1 h2
    rw [Lift.run_add, h2] at h1
    cases h1

/-- A function that does what a program does throws only where the program is stuck. -/
theorem Lifts.thrown {M : Bpf.World} {P : List Slot} {σ : Bpf.St} {W : IR.World} {τ : IR.St} (h : Lifts M P σ W f τ) (ht : Throws W f τ) : ∃ n, Bpf.run M P n 0 σ = .stuck := by
  obtain ⟨m, τ', e⟩ := ht
  rcases bpf_cases M P σ with hc | ⟨n, x, σ', hc⟩ | hc
  · obtain ⟨b, r, τ1, e1⟩ := h.forever hc m
    rw [e] at e1; cases e1
  · obtain ⟨m', τ1, e1, _⟩ := h.returns n x σ' hc
    exact (ir_ends_unique e1 e).elim
  · exact hc

theorem Lifts.follows {M : Bpf.World} {P : List Slot} {σ : Bpf.St} {W : IR.World} {τ : IR.St} {h : Fn} {lim : Nat} {cost : Nat → Nat} (hl : Lifts M P σ W f τ)
    (H : ∀ k, Follows W f h lim cost τ k) : LiftsUnless (∃ k, lim < total cost (visited W f k τ)) M P σ W h τ := by
  obtain ⟨b1, b2, b3⟩ := Follows.back H
  refine ⟨fun n x σ' e => ?_, fun e => ?_, fun m x τ' e => ?_, ?_⟩
  · obtain ⟨m, τ', e1, e2⟩ := hl.returns n x σ' e
    rcases H m with ⟨n', _, e3⟩ | ⟨i, n', c, r, σ1, τ1, _, e4, _, e5, _⟩
    · rw [e1] at e3
      generalize hr : runFn W h n' τ = r at e3
      cases e3 with
      | done _ _ τ2 ho => exact .inl ⟨n', τ2, hr, ho.mem.trans e2.1, ho.trace.trans e2.2⟩
    · exact .inr ⟨⟨i, e4⟩, n', τ1, e5⟩
  · by_cases hx : ∃ i n' τ1, lim < total cost (visited W f i τ) ∧ runFn W h n' τ = .thrown τ1
    · obtain ⟨i, n', τ1, e4, e5⟩ := hx
      exact .inr ⟨⟨i, e4⟩, n', τ1, e5⟩
    · refine .inl fun m => ?_
      rcases H m with ⟨n', hle, e3⟩ | ⟨i, n', c, r, σ1, τ1, _, e4, _, e5, _⟩
      · obtain ⟨b, r, τ1, e1⟩ := hl.forever e m
        rw [e1] at e3
        generalize hr : runFn W h n' τ = r at e3
        cases e3 with
        | running _ _ _ _ _ _ _ => exact Lift.running_le hle hr
      · exact absurd ⟨i, n', τ1, e4, e5⟩ hx
  · obtain ⟨k, σ1, e1, e2⟩ := b1 m x τ' e
    rcases hl.only k x σ1 e1 with ⟨n, σ', e3, e4⟩ | e3
    · exact .inl ⟨n, σ', e3, e2.mem.trans e4.1, e2.trace.trans e4.2⟩
    · exact .inr e3
  · rintro ⟨m, τ', e⟩
    rcases b3 m τ' e with ⟨k, σ1, e1, _⟩ | ⟨k, c, r, σ1, e1, _⟩
    · exact .inr (hl.thrown ⟨k, σ1, e1⟩)
    · exact .inl ⟨k, e1⟩

/-- What does what a program does that runs for ever and ends throws. -/
theorem LiftsUnless.stops {why : Prop} {M : Bpf.World} {P : List Slot} {σ : Bpf.St} {W : IR.World} {τ : IR.St} {h : Fn} {K : Nat} (hl : LiftsUnless why M P σ W h τ)
    (hk : EndsIn K W h) (hf : ∀ n, ∃ pc σ', Bpf.run M P n 0 σ = .goto pc σ') : Throws W h τ := by
  rcases hl.forever hf with e | e
  · obtain ⟨b, r, τ', e⟩ := e K
    exact absurd e (hk τ K (Nat.le_refl _) b r τ')
  · exact e.2

theorem ir_stuck_unique {W : IR.World} {f : Fn} {n m : Nat} {τ : IR.St} {x a} (h1 : runFn W f n τ = .done x a) (h2 : runFn W f m τ = .stuck) : False := by
  rcases Nat.le_total n m with hle | hle
  · obtain ⟨d, rfl⟩ := Nat.exists_eq_add_of_le hle
    unfold runFn at h1 h2
    rw [Lift.run_add, h1] at h2
    cases h2
  · obtain ⟨d, rfl⟩ := Nat.exists_eq_add_of_le hle
    unfold runFn at h1 h2
    rw [Lift.run_add, h2] at h1
    cases h1

/-- A function that does what a program does is stuck only where the program is stuck. -/
theorem Lifts.stuck {M : Bpf.World} {P : List Slot} {σ : Bpf.St} {W : IR.World} {τ : IR.St} (h : Lifts M P σ W f τ) {m : Nat} (e : runFn W f m τ = .stuck) : ∃ n, Bpf.run M P n 0 σ = .stuck := by
  rcases bpf_cases M P σ with hc | ⟨n, x, σ', hc⟩ | hc
  · obtain ⟨b, r, τ1, e1⟩ := h.forever hc m
    rw [e] at e1; cases e1
  · obtain ⟨m', τ1, e1, _⟩ := h.returns n x σ' hc
    exact (ir_stuck_unique e1 e).elim
  · exact hc

theorem evalAll_second {τ : IR.St} {l : List Val} {a b : BitVec 64} {y : Nat} (h : evalAll τ l = some [a, b]) (hy : l[1]? = some (.insn y)) : τ.env y = b := by
  match l with
  | [] => cases hy
  | [v] => cases hy
  | v :: w :: l =>
    simp only [List.getElem?_cons_succ, List.getElem?_cons_zero, Option.some.injEq] at hy
    subst hy
    simp only [evalAll, Option.bind_eq_bind, Option.bind_eq_some_iff, eval] at h
    obtain ⟨_, _, _, ⟨_, h1, _, _, h2⟩, h3⟩ := h
    cases h1; cases h2; cases h3
    rfl

theorem opOf_div {i : Instr} (h : Lift.opOf i = some .div) : ∃ w d src, i = .alu w .div d src := by
  cases i with
  | alu w op d src => cases op <;> first | exact ⟨w, d, src, rfl⟩ | (simp [Lift.opOf, Lift.irAlu] at h)
  | jcc w c d src off => cases c <;> simp [Lift.opOf, Lift.irCond] at h
  | swap be d w => cases be <;> simp [Lift.opOf] at h
  | _ => simp [Lift.opOf] at h

/-- A division of the lifted function (without trivial phis) that gets a divisor of zero is one of the program that does. -/
theorem zero_back {P : List Slot} (hw : WellShaped P) (hlen : P.length ≤ 32768) (hne : P ≠ []) (hcl : ∀ sl ∈ P, ∀ i, decode sl = some i → Clean i)
    {n : Nat} (hf : Lift.lift n P = .ok f) {M : Bpf.World} {W : IR.World} (hW : Lift.Agree M W) {σ : Bpf.St} {τ : IR.St} (hs : Lift.Start σ τ) {g : Fn} (hg : Mirrors W f g τ)
    (ho : ∀ z, (g.insn z).op = (f.insn z).op) {d y : Nat} {τ' : IR.St} (hr : Reaches W g τ d τ') (hd : (g.insn d).op = .div) (hv : (g.insn d).vals[1]? = some (.insn y)) (hz : τ'.env y = 0) :
    ZeroDivides M P σ ∨ ∃ n, Bpf.run M P n 0 σ = .stuck := by
  obtain ⟨k, b, r, e⟩ := hr
  rcases hg k b d r τ' e (by rw [hd]; decide) with ⟨j, e⟩ | ⟨j, r', τ1, e, e2⟩
  · exact .inr ((lifts_lift hw hlen hcl hf hne hW hs).stuck e)
  · rcases Lift.C20_from_partial hw hlen hne hcl hf hW hs j b d r' τ1 e with ⟨j, p, σ', sl, i, h1, h2, h3, -, -, h4⟩ | h
    · left
      rw [← ho, hd] at h4
      rcases h4 with ⟨-, h4⟩ | ⟨h4, -, h5⟩
      · cases h4
      · obtain ⟨w, dd, src, rfl⟩ := opOf_div h4.symm.symm
        rw [e2] at h5
        exact ⟨j, p, σ', sl, w, dd, src, h1, h2, h3, by rw [← evalAll_second h5 hv]; exact hz⟩
    · exact .inr h

/-! ## C69 -/

theorem early_of {P : List Slot} (hw : WellShaped P) (hc : Closed P) (hlen : P.length ≤ 32768) (hu : ∀ sl ∈ P, ∀ i, decode sl = some i → Usual i)
    (hcl : ∀ sl ∈ P, ∀ i, decode sl = some i → Clean i) {n : Nat} {f : Fn} (hf : Lift.lift n P = .ok f) :
    ∃ m R k, (∀ fuel, k ≤ fuel → ∀ check, early n fuel check P = .ok (m, R)) ∧ Code m ∧ LaidOut m R ∧ NoPrintk m ∧ m.sp = 0 ∧ m.args = [1, 2, 3, 4, 5] ∧
      (∀ M W σ τ, Lift.Agree M W → Lift.Start σ τ → ∀ d y τ', Reaches W m τ d τ' → (m.insn d).op = .div → (m.insn d).vals[1]? = some (.insn y) → τ'.env y = 0 →
        ZeroDivides M P σ ∨ ∃ n, Bpf.run M P n 0 σ = .stuck) ∧
      ∀ M W σ τ, Lift.Agree M W → Lift.Start σ τ → Lifts M P σ W m τ := by
  obtain ⟨g', h1, h2, h3⟩ := lift_code hw hc hlen hu hf
  obtain ⟨k, R', hl, hk⟩ := post_of h1 h3
  obtain ⟨k1, m, e1, h4⟩ := removeTrivial_code h3 hl
  have hm := h3.pruned h4
  obtain ⟨k2, R2, l2, _, e2⟩ := hm.post
  obtain ⟨s1, s2⟩ := lifted_shape hw hlen hf
  refine ⟨m, R2, k + k1 + k2, fun fuel hfu check => ?_, hm, l2, (Shrunk.pruned h4).noPrintk (show NoPrintk (withSuccs f g') from (lifted_noPrintk (f := f) hw hlen hcl hf : NoPrintk f)),
    h4.sp.trans s1, h4.args.trans s2, fun M W σ τ hW hst d y τ' a1 a2 a3 a4 => ?_, fun M W σ τ hW hst => ?_⟩
  · unfold early lift pass
    rw [hf, Out.ok_bind, hk fuel (by omega) check, Out.ok_bind]
    dsimp only
    rw [e1 fuel (by omega), Out.ok_bind]
    exact e2 fuel (by omega) check
  · have hr : ∀ m, runFn W (withSuccs f g') m τ = runFn W f m τ := fun m => h2.run W m τ
    refine zero_back hw hlen hc.1 hcl hf hW hst (g := m) (fun j b z r τ' e hz => ?_) (fun z => h4.op z) a1 a2 a3 a4
    have := h4.back W τ j b z r τ' e hz
    simp only [hr] at this
    exact this
  · refine Lifts.preserves (f := withSuccs f g') ?_ (h4.pres W τ)
    have := lifts_lift hw hlen hcl hf hc.1 hW hst
    have hr : ∀ m, runFn W (withSuccs f g') m τ = runFn W f m τ := fun m => h2.run W m τ
    exact ⟨fun n x σ' e => by simpa only [hr] using this.returns n x σ' e, fun e m => by rw [hr]; exact this.forever e m, fun m x τ' e => this.only m x τ' (by rw [← hr]; exact e)⟩

theorem early_code {P : List Slot} (h : Fair P) (hr : KnownRegs P) (hs : ¬ Unknown P) (hi : ¬ ReadsUnset P) :
    ∃ n0, ∀ n, n0 ≤ n → ∃ f R k, (∀ fuel, k ≤ fuel → ∀ check, early n fuel check P = .ok (f, R)) ∧ Code f ∧ LaidOut f R ∧
      ∀ M W σ τ, Lift.Agree M W → Lift.Start σ τ → Lifts M P σ W f τ := by
  obtain ⟨n0, h0⟩ := Lift.C61_exact h.shaped h.closed h.len hr (clean_six h.clean)
  refine ⟨n0, fun n hn => ?_⟩
  obtain ⟨f, hf⟩ := (h0 n hn).1.2 ⟨hs, hi⟩
  obtain ⟨m, R, k, a, b, c, _, _, _, _, d⟩ := early_of h.shaped h.closed h.len h.usual h.clean hf
  exact ⟨m, R, k, a, b, c, d⟩

/-- C69 (partial), `insn_counter`: every program of the kind described there is lifted, and the pass succeeds on what is lifted.  With the lengths of the blocks filled in (and the labels of
phis brought up to date, see `C66_violated_labels`) the result takes a bounded number of steps whatever it is started with, and does what the bytecode does unless the lengths of the blocks
that are entered, with five more for each, exceed the limit; if the bytecode runs for ever it throws. -/
theorem C69_counter_partial {P : List Slot} (h : Fair P) (hr : KnownRegs P) (hs : ¬ Unknown P) (hi : ¬ ReadsUnset P) :
    ∃ n0, ∀ n, n0 ≤ n → ∃ f R k, (∀ fuel, k ≤ fuel → ∀ check, early n fuel check P = .ok (f, R)) ∧
      ∀ (acc : Bool) (lim : BitVec 32), lim.toNat < 2 ^ 31 → ∃ g, Count.insnCounter R acc lim f = .ok g ∧
        ∀ R', (∀ b, Conn g b → b ∈ R') → (∀ b ∈ R', (g.body b).length < 2 ^ 32) → ∃ K, ∀ M W σ τ, Lift.Agree M W → Lift.Start σ τ → 4 ≤ W.wid f.next →
          EndsIn K W (relabel f (Count.replaceBuiltin R' g)) ∧
          LiftsUnless (∃ k, lim.toNat < total (fun b => (f.body b).length + 5) (visited W f k τ)) M P σ W (relabel f (Count.replaceBuiltin R' g)) τ ∧
          ((∀ n, ∃ pc σ', Bpf.run M P n 0 σ = .goto pc σ') → Throws W (relabel f (Count.replaceBuiltin R' g)) τ) := by
  obtain ⟨n0, h0⟩ := early_code h hr hs hi
  refine ⟨n0, fun n hn => ?_⟩
  obtain ⟨f, R, k, e, hc, hl, hL⟩ := h0 n hn
  refine ⟨f, R, k, e, fun acc lim hlim => ?_⟩
  have hin := hc.input hl
  obtain ⟨g, hg⟩ := Count.insnCounter_ok hin hc.leaves acc lim
  refine ⟨g, hg, fun R' hR hlen => ?_⟩
  obtain ⟨f1, bs, U, B, hb⟩ := Count.insnCounter_built hin.shape hin.noPhis hin.nodup hin.blocks hin.all hg
  have hF := Count.C29_filled B.shape hR hlen
  obtain ⟨K, hK⟩ := Count.C66_ends hin hc.ok.only hg hF hlim
  refine ⟨K, fun M W σ τ hW hst hw => ?_⟩
  have h1 : EndsIn K W (relabel f (Count.replaceBuiltin R' g)) := fun τ m hm => hK W hw τ m hm
  have h2 := (hL M W σ τ hW hst).follows fun k => Count.C66_follows_partial hin hc.noCount hg hF (Count.C66_costs hin hg hR) hlim W hw τ k
  exact ⟨h1, h2, fun hf => h2.stops h1 hf⟩

/-- C69 (partial), `jmp_complexity`: the same, with the number of jumps and a limit of 100. -/
theorem C69_jumps_partial {P : List Slot} (h : Fair P) (hr : KnownRegs P) (hs : ¬ Unknown P) (hi : ¬ ReadsUnset P) :
    ∃ n0, ∀ n, n0 ≤ n → ∃ f R k, (∀ fuel, k ≤ fuel → ∀ check, early n fuel check P = .ok (f, R)) ∧
      ∃ g, Count.jmpComplexity R f = .ok g ∧ ∃ K, ∀ M W σ τ, Lift.Agree M W → Lift.Start σ τ → 4 ≤ W.wid f.next →
        EndsIn K W (relabel f g) ∧ LiftsUnless (∃ k, 100 < total (jumpsIn f) (visited W f k τ)) M P σ W (relabel f g) τ ∧
        ((∀ n, ∃ pc σ', Bpf.run M P n 0 σ = .goto pc σ') → Throws W (relabel f g) τ) := by
  obtain ⟨n0, h0⟩ := early_code h hr hs hi
  refine ⟨n0, fun n hn => ?_⟩
  obtain ⟨f, R, k, e, hc, hl, hL⟩ := h0 n hn
  have hin := hc.input hl
  obtain ⟨g, hg⟩ := Count.jmpComplexity_ok hin
  obtain ⟨K, hK⟩ := Count.C67_ends hin hc.ok.only (hc.jumps hl) hg fun C hC hcn => hc.cycle hl hC hcn
  refine ⟨f, R, k, e, g, hg, K, fun M W σ τ hW hst hw => ?_⟩
  have h1 : EndsIn K W (relabel f g) := fun τ m hm => hK W hw τ m hm
  have h2 := (hL M W σ τ hW hst).follows fun k => by
    rcases Count.C67_follows_partial hin hg with ⟨h3, _⟩ | h3
    · exact absurd h3 (hc.jumps hl)
    · exact h3 W hw τ k
  exact ⟨h1, h2, fun hf => h2.stops h1 hf⟩

/-- A guarded division is reached with a divisor of zero. -/
def DividesByZero (R : List Nat) (W : IR.World) (f : Fn) (τ : IR.St) : Prop := ∃ d y τ', DivZero.Guarded R f d y ∧ Reaches W f τ d τ' ∧ τ'.env y = 0

theorem guards_lifts {R : List Nat} (hc : Code f) (hl : LaidOut f R) : ∃ g, DivZero.divByZero R f = .ok g ∧
    (∀ W σ τ d y, DivZero.Guarded R f d y → Reaches W g σ d τ → τ.env y ≠ 0) ∧
    (DivZero.NoPhisBehind R f → ∀ {P M W σ τ}, Lifts M P σ W f τ → LiftsUnless (DividesByZero R W f τ) M P σ W g τ ∧ (DividesByZero R W f τ → Throws W g τ)) := by
  have hin : DivZero.Input R f := ⟨hc.shape, hl.nodup, fun b hb => (hl.mem b).1 hb⟩
  obtain ⟨g, hg⟩ := DivZero.divByZero_ok hin fun x hx ho => (hc.insn x hx).chk.arity 2 (by rw [ho]; rfl)
  refine ⟨g, hg, fun W σ τ d y hd hr => DivZero.C28_no_zero_partial hin hg W σ τ hd hr, fun hp P M W σ τ hl => ?_⟩
  have hz : DividesByZero R W f τ → Throws W g τ := by
    rintro ⟨d, y, τ', h1, h2, h3⟩
    obtain ⟨d', y', τ1, _, _, _, m, e⟩ := DivZero.C28_goes_to_error_partial hin hp hg W τ τ' h1 h2 h3
    exact ⟨m, τ1, e⟩
  obtain ⟨s1, s2, s3, s4⟩ := DivZero.C28_otherwise_same hin hp hg W τ
  have hno : ¬ DividesByZero R W f τ → ∀ d y τ', DivZero.Guarded R f d y → Reaches W f τ d τ' → τ'.env y ≠ 0 := fun hn d y τ' h1 h2 h3 => hn ⟨d, y, τ', h1, h2, h3⟩
  refine ⟨⟨fun n x σ' e => ?_, fun e => ?_, fun m x τ' e => ?_, ?_⟩, hz⟩
  · by_cases hd : DividesByZero R W f τ
    · exact .inr ⟨hd, hz hd⟩
    · obtain ⟨m, τ', e1, e2⟩ := hl.returns n x σ' e
      obtain ⟨m', _, e3⟩ := s1 (hno hd) m
      rw [e1] at e3
      generalize hr : runFn W g m' τ = r at e3
      cases e3 with
      | done => exact .inl ⟨m', τ', hr, e2⟩
  · by_cases hd : DividesByZero R W f τ
    · exact .inr ⟨hd, hz hd⟩
    · refine .inl fun m => ?_
      obtain ⟨m', hle, e3⟩ := s1 (hno hd) m
      obtain ⟨b, r, τ1, e1⟩ := hl.forever e m
      rw [e1] at e3
      generalize hr : runFn W g m' τ = r at e3
      cases e3 with
      | running => exact Lift.running_le hle hr
  · obtain ⟨k, e1⟩ := s2 m x τ' e
    exact hl.only k x τ' e1
  · rintro ⟨m, τ', e⟩
    rcases s3 m τ' e with ⟨k, e1⟩ | ⟨d, y, h1, h2, h3⟩
    · exact .inr (hl.thrown ⟨k, τ', e1⟩)
    · exact .inl ⟨d, y, τ', h1, h2, h3⟩

/-- C69 (partial), `div_by_zero`: the pass succeeds on what is lifted, and no execution of the result gets to a guarded division with a divisor of zero.  Where no block behind a
division has phis, the result does what the bytecode does unless a guarded division by zero is reached; then it throws.  Not guarded are the divisions of `C28_violated_first`, `_mod`, `_width`
and `_const`; for the phis see `C28_violated_phi`. -/
theorem C69_guards_partial {P : List Slot} (h : Fair P) (hr : KnownRegs P) (hs : ¬ Unknown P) (hi : ¬ ReadsUnset P) :
    ∃ n0, ∀ n, n0 ≤ n → ∃ f R k, (∀ fuel, k ≤ fuel → ∀ check, early n fuel check P = .ok (f, R)) ∧ ∃ g, DivZero.divByZero R f = .ok g ∧
      (∀ W σ τ d y, DivZero.Guarded R f d y → Reaches W g σ d τ → τ.env y ≠ 0) ∧
      (DivZero.NoPhisBehind R f → ∀ M W σ τ, Lift.Agree M W → Lift.Start σ τ → LiftsUnless (DividesByZero R W f τ) M P σ W g τ ∧ (DividesByZero R W f τ → Throws W g τ)) := by
  obtain ⟨n0, h0⟩ := early_code h hr hs hi
  refine ⟨n0, fun n hn => ?_⟩
  obtain ⟨f, R, k, e, hc, hl, hL⟩ := h0 n hn
  obtain ⟨g, h1, h2, h3⟩ := guards_lifts hc hl
  exact ⟨f, R, k, e, g, h1, h2, fun hp M W σ τ hW hst => h3 hp (hL M W σ τ hW hst)⟩

/-! ## Examples -/

/-- How a function ends in at most 1000 steps: a returned value, or `none` if it throws. -/
def endOf (f : Fn) (τ : IR.St) : Option (Option (BitVec 64)) :=
  match runFn Lift.exWI f 1000 τ with
  | .done x _ => some (some x)
  | .thrown _ => some none
  | _ => none

/-- `endOf` for a program with counters and a limit. -/
def counted (P : List Slot) (acc : Bool) (lim : BitVec 32) (τ : IR.St) : Option (Option (BitVec 64)) :=
  match early 100 100 true P with
  | .ok (f, R) =>
    match Count.insnCounter R acc lim f with
    | .ok g => endOf (relabel f (Count.replaceBuiltin g.allBbs g)) τ
    | _ => none
  | _ => none

/-- `endOf` for a program with counters of jumps. -/
def jumped (P : List Slot) (τ : IR.St) : Option (Option (BitVec 64)) :=
  match early 100 100 true P with
  | .ok (f, R) =>
    match Count.jmpComplexity R f with
    | .ok g => endOf (relabel f g) τ
    | _ => none
  | _ => none

/-- `endOf` for a program with guarded divisions. -/
def guarded (P : List Slot) (τ : IR.St) : Option (Option (BitVec 64)) :=
  match early 100 100 true P with
  | .ok (f, R) =>
    match DivZero.divByZero R f with
    | .ok g => endOf g τ
    | _ => none
  | _ => none

/-- The example of C61 has a loop.  With three rounds it returns 42 with the limit 60, and is stopped with the limit 20, or with 30 rounds. -/
example : counted Lift.exL true 60 (Lift.exτ 3) = some (some 42) ∧ counted Lift.exL false 60 (Lift.exτ 3) = some (some 42) ∧ counted Lift.exL true 20 (Lift.exτ 3) = some none ∧
    counted Lift.exL true 60 (Lift.exτ 30) = some none ∧ jumped Lift.exL (Lift.exτ 3) = some (some 42) := by decide +kernel

/-- `r0 = 0; l: ja l` runs for ever. -/
def exForever : List Slot := [⟨0xb7, 0, 0, 0, 0⟩, ⟨5, 0, 0, 0xffff, 0⟩]

example : Fair exForever ∧ KnownRegs exForever ∧ ¬ Unknown exForever ∧ ¬ ReadsUnset exForever ∧ counted exForever true 60 (Lift.exτ 3) = some none ∧ jumped exForever (Lift.exτ 3) = some none :=
  ⟨fair_of_check (by decide +kernel), Lift.known_of_check (by decide +kernel), Lift.unknown_of_check (by decide +kernel),
    Lift.init_of_check (K := [[], [0]]) (by decide +kernel), by decide +kernel, by decide +kernel⟩

/-- `r0 = r2; r0 += 1; r0 /= r1; exit`, with 7 in r2. -/
def exDivide : List Slot := [⟨0xbf, 0, 2, 0, 0⟩, ⟨7, 0, 0, 0, 1⟩, ⟨0x3f, 0, 1, 0, 0⟩, ⟨0x95, 0, 0, 0, 0⟩]

example : Fair exDivide ∧ KnownRegs exDivide ∧ ¬ Unknown exDivide ∧ ¬ ReadsUnset exDivide ∧ guarded exDivide (Lift.exτ 2) = some (some 4) ∧ guarded exDivide (Lift.exτ 0) = some none :=
  ⟨fair_of_check (by decide +kernel), Lift.known_of_check (by decide +kernel), Lift.unknown_of_check (by decide +kernel),
    Lift.init_of_check (K := [[1, 2], [0, 1], [0, 1], [0]]) (by decide +kernel), by decide +kernel, by decide +kernel⟩

end Verif.Pipe
