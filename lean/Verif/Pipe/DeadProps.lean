import Verif.Compile.DeadProps
import Verif.Pipe.LegalProps
/-!
# C81 for whole runs: what `bpf_ir_autorun` leaves in place of the program has no dead code
-/
namespace Verif.Pipe
open Verif Verif.IR
open Verif.Bpf (Slot SlotReach)
open Verif.Flatten (graphOf flatten flatInsns flatInsn)
open Verif.Norm (VrPos Op FInsn)
open Verif.Compile (Orderly BlockReach Spared SameJumps ConstBoth)

/-! ## What flattening keeps -/

theorem flatInsn_kind {f : Fn} {dv : Nat → Option Nat} {ps : Nat → VrPos} {x : Nat} {i : FInsn} (h : flatInsn f dv ps x = .ok i) :
    i.op = (f.insn x).op ∧ i.bb1 = (f.insn x).bb1 ∧ i.bb2 = (f.insn x).bb2 := by
  unfold flatInsn at h
  dsimp only at h
  obtain ⟨t, -, h⟩ := Out.bind_eq_ok.1 h
  obtain ⟨vs, -, h⟩ := Out.bind_eq_ok.1 h
  obtain ⟨a, -, h⟩ := Out.bind_eq_ok.1 h
  cases h
  exact ⟨rfl, rfl, rfl⟩

theorem flatInsns_map {f : Fn} {dv : Nat → Option Nat} {ps : Nat → VrPos} : ∀ {xs : List Nat} {is : List FInsn}, flatInsns f dv ps xs = .ok is →
    is.map (fun i => (i.op, i.bb1, i.bb2)) = xs.map fun x => ((f.insn x).op, (f.insn x).bb1, (f.insn x).bb2)
  | [], is, h => by cases h; rfl
  | x :: xs, is, h => by
    rw [flatInsns] at h
    obtain ⟨i, h1, h⟩ := Out.bind_eq_ok.1 h
    obtain ⟨r, h2, h⟩ := Out.bind_eq_ok.1 h
    cases h
    obtain ⟨k1, k2, k3⟩ := flatInsn_kind h1
    rw [List.map_cons, List.map_cons, flatInsns_map h2, k1, k2, k3]

/-- An instruction at a place of the block comes from the one at the same place. -/
theorem flatInsns_at {f : Fn} {dv : Nat → Option Nat} {ps : Nat → VrPos} {xs : List Nat} {is X Y : List FInsn} {i : FInsn} (h : flatInsns f dv ps xs = .ok is) (e : is = X ++ i :: Y) :
    ∃ pre x r, xs = pre ++ x :: r ∧ r.length = Y.length ∧ i.op = (f.insn x).op := by
  have hm := flatInsns_map h
  rw [e, List.map_append, List.map_cons] at hm
  obtain ⟨pre, t, e1, -, e2⟩ := List.map_eq_append_iff.1 hm.symm
  obtain ⟨x, r, rfl, e3, e4⟩ := List.map_eq_cons_iff.1 e2
  refine ⟨pre, x, r, e1, ?_, (congrArg (·.1) e3).symm⟩
  have := congrArg List.length e4
  simpa using this

theorem flatInsns_mem {f : Fn} {dv : Nat → Option Nat} {ps : Nat → VrPos} {xs : List Nat} {is : List FInsn} {x : Nat} (h : flatInsns f dv ps xs = .ok is) (hx : x ∈ xs) :
    ∃ i ∈ is, i.op = (f.insn x).op ∧ i.bb1 = (f.insn x).bb1 ∧ i.bb2 = (f.insn x).bb2 := by
  have hm := flatInsns_map h
  have : ((f.insn x).op, (f.insn x).bb1, (f.insn x).bb2) ∈ is.map (fun i => (i.op, i.bb1, i.bb2)) := by rw [hm]; exact List.mem_map.2 ⟨x, hx, rfl⟩
  obtain ⟨i, hi, e⟩ := List.mem_map.1 this
  simp only [Prod.mk.injEq] at e
  exact ⟨i, hi, e⟩

theorem flatten_ids {f : Fn} {dv : Nat → Option Nat} {ps : Nat → VrPos} : ∀ {R : List Nat} {bs : List Flat.Block}, flatten f dv ps R = .ok bs →
    bs.map (·.id) = R ∧ ∀ b ∈ bs, flatInsns f dv ps (f.body b.id) = .ok b.insns
  | [], bs, h => by cases h; exact ⟨rfl, fun b hb => by cases hb⟩
  | y :: R, bs, h => by
    rw [flatten] at h
    obtain ⟨is, h1, h⟩ := Out.bind_eq_ok.1 h
    obtain ⟨r, h2, h⟩ := Out.bind_eq_ok.1 h
    cases h
    obtain ⟨k1, k2⟩ := flatten_ids h2
    refine ⟨by rw [List.map_cons, k1], fun b hb => ?_⟩
    rcases List.mem_cons.1 hb with rfl | hb
    · exact h1
    · exact k2 b hb

/-! ## The blocks are orderly and can be reached -/

theorem orderly_of {g : Fn} {dv : Nat → Option Nat} {ps : Nat → VrPos} {R : List Nat} {bs : List Flat.Block} {l : Bool} (hR : R.Nodup) (hfl : Loc.Flow g R)
    (e : flatten g dv ps R = .ok bs) (hsp : ∀ b ∈ bs, ∀ i ∈ b.insns, Spared (l, true) i) : Orderly bs := by
  obtain ⟨k1, k2⟩ := flatten_ids e
  refine ⟨by rw [k1]; exact hR, fun b hb X i Y hi ho => ?_, fun b hb i hi ho hc => ?_⟩
  · obtain ⟨pre, x, r, e1, e2, e3⟩ := flatInsns_at (k2 b hb) hi
    have hbR : b.id ∈ R := by rw [← k1]; exact List.mem_map.2 ⟨b, hb, rfl⟩
    have := hfl.last b.id hbR pre x r e1 (by rw [← e3]; rcases ho with o | o <;> rw [o] <;> rfl) (by rw [← e3]; rcases ho with o | o <;> rw [o] <;> simp)
    rw [this] at e2
    exact List.eq_nil_of_length_eq_zero e2.symm
  · obtain ⟨⟨_, _, _, _, c1⟩, ⟨_, _, _, _, c2⟩⟩ := hc
    rcases (hsp b hb i hi).2 rfl ho with ⟨p, hp⟩ | ⟨p, hp⟩
    · rw [hp] at c1; cases c1
    · rw [hp] at c2; cases c2

theorem falls_of {f : Fn} {b c : Nat} (h1 : ∀ x ∈ f.body b, ends (f.insn x).op = false) (h2 : f.succs b = [c]) : Layout.Falls (graphOf f) b c := by
  refine .inl ⟨h2, ?_⟩
  rcases (Route.fall c h1 h2 : Route f b).last with ⟨t, e, _⟩ | ⟨t, e', e, e2⟩ | ⟨e, _, _⟩
  · obtain ⟨pre, x, e1, e2, _⟩ := Flatten.lastOf_ja e
    have := h1 x (by rw [e1]; simp)
    rw [e2] at this
    cases this
  · rw [h2] at e2; simp at e2
  · unfold Layout.Blk.jaTo graphOf
    dsimp only
    split
    · next t e' => exact absurd e' (e t)
    · rfl

theorem reach_of {f g : Fn} {dv : Nat → Option Nat} {ps : Nat → VrPos} {R : List Nat} {bs : List Flat.Block} (h : Code f) (hl : LaidOut f R) (hfl : Loc.Flow g R) (hj : SameJumps R f g)
    (e : flatten g dv ps R = .ok bs) : ∀ b ∈ bs, BlockReach bs b.id := by
  obtain ⟨k1, k2⟩ := flatten_ids e
  have at_ : ∀ b ∈ R, ∃ B ∈ bs, B.id = b := fun b hb => by rw [← k1] at hb; exact List.mem_map.1 hb
  have next : ∀ a c, Layout.Next R a c → BlockReach bs a → (∀ B ∈ bs, B.id = a → ∀ xs i, B.insns = xs ++ [i] → i.op ≠ .ja ∧ i.op ≠ .ret) → BlockReach bs c := by
    rintro a c ⟨X, Y, eR⟩ ha hne
    rw [eR] at k1
    obtain ⟨A, T, rfl, -, e2⟩ := List.map_eq_append_iff.1 k1
    obtain ⟨B, T', rfl, rfl, e3⟩ := List.map_eq_cons_iff.1 e2
    obtain ⟨C, T'', rfl, rfl, -⟩ := List.map_eq_cons_iff.1 e3
    exact .fall rfl ha (hne B (by simp) rfl)
  have jump : ∀ a n x, BlockReach bs a → a ∈ R → x ∈ f.body a → ((f.insn x).op = .ja ∧ (f.insn x).bb1 = n ∨ (f.insn x).op.condJmp = true ∧ (f.insn x).bb2 = n) → BlockReach bs n := by
    intro a n x ha haR hx ho
    obtain ⟨B, hB, rfl⟩ := at_ a haR
    obtain ⟨h1, l1, l2, l3⟩ := (hj _ haR).1 x hx (fun o => by rw [o] at ho; rcases ho with ⟨k, -⟩ | ⟨k, -⟩ <;> cases k)
    obtain ⟨i, hi, i1, i2, i3⟩ := flatInsns_mem (k2 B hB) h1
    refine .jump hB ha hi ?_
    rw [i1, i2, i3, l1, l2, l3]
    exact ho
  have key : ∀ b, Conn f b → b ∈ R ∧ BlockReach bs b := by
    intro b hc
    induction hc with
    | entry =>
      have hf := hl.first
      rw [← k1] at hf
      cases bs with
      | nil => cases hf
      | cons B C =>
        have : B.id = f.entry := by simpa using hf
        exact ⟨by rw [← k1, ← this]; simp, by rw [← this]; exact .first rfl⟩
    | @step a b _ hs ih =>
      obtain ⟨haR, har⟩ := ih
      have haA := (hl.mem a).1 haR
      refine ⟨(hl.mem b).2 ((h.graph.succs a haA).2 b hs), ?_⟩
      cases h.route a haA with
      | fall c h1 h2 =>
        rw [h2, List.mem_singleton] at hs
        rw [hs]
        refine next a c (hl.next a haR c (falls_of h1 h2)) har fun B hB hid xs i ei => ?_
        have no : ¬ (i.op = .ja ∨ i.op = .ret) := fun ho => by
          obtain ⟨pre, x, r, e1, -, e3⟩ := flatInsns_at (k2 B hB) ei
          rw [hid] at e1
          obtain ⟨m1, m2, -⟩ := (hj a haR).2 x (by rw [e1]; simp) (by rw [← e3]; exact ho.elim (fun o => .inl (.inl o)) .inr)
          have := h1 x m1
          rw [← m2, ← e3] at this
          rcases ho with o | o <;> rw [o] at this <;> cases this
        exact ⟨fun o => no (.inl o), fun o => no (.inr o)⟩
      | ja x pre h1 h2 h3 =>
        rw [h3, List.mem_singleton] at hs
        exact jump a b x har haR (by rw [h1]; simp) (.inl ⟨h2, hs.symm⟩)
      | cond x pre h1 h2 h3 =>
        have hx : x ∈ f.body a := by rw [h1]; simp
        have hf : Layout.Falls (graphOf f) a (f.insn x).bb1 := .inr ⟨_, h3⟩
        rw [h3, List.mem_cons, List.mem_singleton] at hs
        rcases hs with hs | hs
        · rw [hs]
          obtain ⟨m1, m2, -⟩ := (hj a haR).1 x hx (fun o => by rw [o] at h2; cases h2)
          obtain ⟨X, Y, eg⟩ := List.append_of_mem m1
          have hY := hfl.last a haR X x Y eg (by rw [m2]; simp [Loc.control, h2]) (fun o => by rw [m2] at o; rw [o] at h2; cases h2)
          rw [hY] at eg
          refine next a _ (hl.next a haR _ hf) har fun B hB hid xs i ei => ?_
          have hk := k2 B hB
          rw [hid, eg] at hk
          obtain ⟨X', i', e1, e2⟩ := Compile.flatInsns_snoc hk
          rw [e1] at ei
          have ei := (List.append_inj' ei rfl).2
          have ei : i' = i := by simpa using ei
          rw [← ei, e2, m2]
          exact ⟨fun o => (by rw [o] at h2; cases h2), fun o => (by rw [o] at h2; cases h2)⟩
        · exact jump a b x har haR hx (.inr ⟨h2, hs.symm⟩)
      | ret x pre h1 h2 h3 => rw [h3] at hs; cases hs
  exact fun b hb => (key b.id (h.conn b.id ((hl.mem b.id).1 (by rw [← k1]; exact List.mem_map.2 ⟨b, hb, rfl⟩)))).2

/-- The last pass and code generation. -/
theorem reached_of {opt fn : Fn} {blocks : List Nat} {fuel : Nat} {check : Bool} {r : Compile.Result} (h1 : Code opt) (h6 : NoPrintk opt)
    (ep : pass fuel check (fun _ f => Stack.pre f) (opt, []) = .ok (fn, blocks)) (ec : Compile.compile fn blocks = .ok r)
    (hform : ∀ x, InBody opt x → Stack.Form opt.sp 0 .plain (opt.insn x)) (hst : NoFixedStore opt) (hlen : r.code.length ≤ 32768) : ∀ p < r.code.length, SlotReach r.code p := by
  obtain ⟨rfl, hc, hl, hno, hF, -⟩ := marked_of h1 h6 ep hform
  have ha := marked_store hst
  obtain ⟨g, dv, ps, hfl, hj, e6, hsp, e7⟩ := Compile.compile_parts (l := false) (hc.ready hl hno) (hc.neat hl) (hc.fits hl hF)
    (fun b hb x hx ho => absurd ho (hc.plain (.inr (.inr ⟨b, (hl.mem b).1 hb, hx⟩))).2) hc.tight (hc.noSelf hl)
    (fun _ ⟨b, hb, hx⟩ => (hc.insn _ ⟨b, (hl.mem b).1 hb, hx⟩).sturdy fun o => ha _ ⟨b, (hl.mem b).1 hb, hx⟩ (o.resolve_right fun o => by cases o.1)) hl.mem hc.graph (hc.steps hl) ec
  exact Compile.C81_emitted e7 (orderly_of hl.nodup hfl e6 hsp) (reach_of hc hl hfl hj e6) hlen

/-- **C81** for whole runs, with or without `div_by_zero`.  For every program that a loader accepts (`Fair`): if the run ends without an error, the optimised function uses the frame pointer in
the usual forms only and stores to computed addresses only, and the new program has at most 32768 slots, then control can reach every slot of the new program, as it could
every slot of the old one (which is part of `Fair`).
Missing: the conditions on the frame pointer and the addresses are on the optimised function; with `div_by_zero` no phi may be fed from a block with a division. -/
theorem C81_run_partial {P : List Slot} (hP : Fair P) {n fuel : Nat} {check : Bool} :
    (∀ A, autorun n fuel check P = .ok A → (∀ x, InBody A.opt x → Stack.Form A.opt.sp 0 .plain (A.opt.insn x)) → NoFixedStore A.opt → A.res.code.length ≤ 32768 →
      ∀ p < A.res.code.length, SlotReach A.res.code p) ∧
    (∀ A, autorunGuards n fuel check P = .ok A → NoLabels A.reach A.lifted → (∀ x, InBody A.opt x → Stack.Form A.opt.sp 0 .plain (A.opt.insn x)) → NoFixedStore A.opt →
      A.res.code.length ≤ 32768 → ∀ p < A.res.code.length, SlotReach A.res.code p) := by
  constructor
  · intro A e hF ha hlen
    obtain ⟨h1, h6, -, -, -, ep, ec⟩ := autorun_parts hP.shaped hP.closed hP.len hP.usual hP.clean e
    exact reached_of h1 h6 ep ec hF ha hlen
  · intro A e hn hF ha hlen
    obtain ⟨h1, h6, -, -, -, ep, ec⟩ := guarded_parts hP.shaped hP.closed hP.len hP.usual hP.clean e hn
    exact reached_of h1 h6 ep ec hF ha hlen

/-! ## The hypotheses hold for a program that compares known values -/

/-- `r1 = 5; if r1 != 3 goto +2; r0 = 1; exit; r0 = 2; exit`. -/
def exTwoWay : List Slot := [⟨0xb7, 1, 0, 0, 5⟩, ⟨0x55, 1, 0, 2, 3⟩, ⟨0xb7, 0, 0, 0, 1⟩, ⟨0x95, 0, 0, 0, 0⟩, ⟨0xb7, 0, 0, 0, 2⟩, ⟨0x95, 0, 0, 0, 0⟩]

example : ∃ A, autorun 100 100 true exTwoWay = .ok A ∧ (∀ p < A.res.code.length, SlotReach A.res.code p) ∧ 3 < A.res.code.length := by
  have h : Cg.onOk (autorun 100 100 true exTwoWay) (fun A => tameB A.opt && (decide (A.res.code.length ≤ 32768) && decide (3 < A.res.code.length))) = true := by decide +kernel
  obtain ⟨A, e, h⟩ := Cg.of_onOk h
  simp only [Bool.and_eq_true, decide_eq_true_eq] at h
  obtain ⟨k1, k2⟩ := tame_of_check h.1
  exact ⟨A, e, (C81_run_partial (fair_of_check (by decide +kernel : fairB exTwoWay = true))).1 A e k1 k2 h.2.1, h.2.2⟩

example : ∃ A, autorunGuards 100 100 true exDivide = .ok A ∧ ∀ p < A.res.code.length, SlotReach A.res.code p := by
  have h : Cg.onOk (autorunGuards 100 100 true exDivide) (fun A => noLabelsB A.reach A.lifted && (tameB A.opt && decide (A.res.code.length ≤ 32768))) = true := by decide +kernel
  obtain ⟨A, e, h⟩ := Cg.of_onOk h
  simp only [Bool.and_eq_true, decide_eq_true_eq] at h
  obtain ⟨k1, k2⟩ := tame_of_check h.2.1
  exact ⟨A, e, (C81_run_partial (fair_of_check (by decide +kernel : fairB exDivide = true))).2 A e (noLabels_of_check h.1) k1 k2 h.2.2⟩

end Verif.Pipe
