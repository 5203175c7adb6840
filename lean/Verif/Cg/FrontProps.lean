import Verif.Spec.Front
import Verif.Cg.ArrayProps
import Verif.Cg.ConstProps
import Verif.Cg.Props
/-!
# C54: the steps before registers are assigned
-/
namespace Verif.Cg
open Verif Verif.IR Verif.Edit Verif.Loc Verif.Lower
open Verif.Norm (VrPos)

/-- **C54**: `spill_array` succeeds.  Every array in a reachable block gets bytes of the stack below those given out before, and no two of them overlap.  The
function does the same as before. -/
theorem C54_arrays {s : Cg} {R : List Nat} {off : Int} (h : SpillReady s R off) (hR : R.Nodup) (ha : ArraysFit s R) :
    ∃ s' off', spillArray R s off = .ok (s', off') ∧ s'.f = s.f ∧ SpillReady s' R off' ∧
      (∀ b ∈ R, ∀ x ∈ s.f.body b, (s.f.insn x).op = .allocarray → OnStack s' x off' off ∧
        ∀ c ∈ R, ∀ y ∈ s.f.body c, (s.f.insn y).op = .allocarray → x ≠ y → OnStack s' x off' (s'.pos y).spilled ∨ OnStack s' y off' (s'.pos x).spilled) ∧
      (∀ x, (s.f.insn x).op ≠ .allocarray → s'.pos x = s.pos x) ∧
      ∀ (W : World) τ, Loc.Keeps W s.f (places s.pos) s'.f (places s'.pos) τ := by
  have hB := h.base
  obtain ⟨s', off', e, hf, -, hp, hF, hk, hs, hd, hr⟩ := arrays_ok (R.flatMap s.f.body) s off hB ⟨h.le, h.pos⟩ h.fresh (fun x hx => by
    obtain ⟨b, hb, hx⟩ := List.mem_flatMap.1 hx
    exact ha b hb x hx) (nodup_bodies hB.tidy hB.sub hR)
  refine ⟨s', off', e, hf, Base.ready (by rw [hf]; exact hB) hp hF, fun b hb x hx ho => ⟨hs x (List.mem_flatMap.2 ⟨b, hb, hx⟩) ho, fun c hc y hy hyo hxy =>
    hd x (List.mem_flatMap.2 ⟨b, hb, hx⟩) y (List.mem_flatMap.2 ⟨c, hc, hy⟩) hxy ho hyo⟩, fun x hx => hr x (.inr hx), hk⟩

theorem lower_keeps_trans {W : World} {f g h : Fn} {k m : Nat → Nat} {σ : IR.St} {τ : Loc.St} (h1 : Lower.Keeps W f g k σ τ) (h2 : Loc.Keeps W g k h m τ) :
    Lower.Keeps W f h m σ τ := by
  intro n
  rcases h1 n with e | ⟨n1, hn1, hs⟩
  · exact .inl e
  · rcases h2 n1 with e | ⟨n2, hn2, hs2⟩
    · rw [e] at hs
      generalize IR.runFn W f n σ = r at hs
      cases hs
    · refine .inr ⟨n2, by omega, ?_⟩
      generalize IR.runFn W f n σ = r at hs
      generalize Loc.runFn W g k n1 τ = r1 at hs hs2
      generalize Loc.runFn W h m n2 τ = r2 at hs2
      cases hs with
      | done x σ' τ1 a b => cases hs2 with | done _ _ τ2 a' b' => exact .done _ _ _ (a'.trans a) (b'.trans b)
      | thrown σ' τ1 a b => cases hs2 with | thrown _ τ2 a' b' => exact .thrown _ _ (a'.trans a) (b'.trans b)
      | running b c r s σ' τ1 h1 h2 => cases hs2 with | running _ c' _ s' _ τ2 a' b' => exact .running _ _ _ _ _ _ (a'.trans h1) (b'.trans h2)

/-- The arrays of the lowered function. -/
theorem lower_arrays {f : Fn} {R : List Nat} {s : Cg} {rn : Nat → Nat} {H N M : Nat → List Nat} {C : List Nat} {A : List (Nat × Nat)} (hr : Ready f R)
    (hl : Low (initCg f).f (rgOf f) (initCg f).pos C A s rn H N M) (hC : ∀ y, y ∈ C ↔ (∃ b ∈ R, y ∈ f.body b) ∧ (f.insn y).op = .call)
    (ha : ∀ b ∈ R, ∀ x ∈ f.body b, (f.insn x).op = .allocarray → 0 < arrBytes (f.insn x) ∧ arrBytes (f.insn x) + 7 < 2 ^ 32) : ArraysFit s R := by
  intro b hb x hx ho
  have hbb := hr.blocks b hb
  rcases hl.cases hr.tidy hC hbb hx with ⟨h1, ⟨h2, h3⟩ | ⟨h2, h3⟩⟩ | ⟨v, h1⟩
  · rw [h3] at ho
    have := ((hC x).1 h2).2
    rw [this] at ho; cases ho
  · rw [h3, mapOps_op] at ho
    have hlt := hr.tidy.lt x (.inr (.inr ⟨b, hbb, h1⟩))
    have hsp : x ≠ f.sp := fun e => (hr.tidy.fixed b hbb x h1).1 e
    refine ⟨?_, ?_⟩
    · rw [hl.core.posOld x (by show x < f.next + 10; omega)]
      show (if _ then _ else _ : VrPos).allocated = false
      rw [if_neg hsp, if_neg (by omega)]
      rfl
    · rw [h3]
      exact ha b hb x h1 ho
  · rw [h1] at ho; cases ho

theorem rounds_ok {R : List Nat} : ∀ (vss : List (List Nat)) (s : Cg) (off : Int), SpillReady s R off → Choices vss s off →
    ∃ s' off', rounds vss s off = .ok (s', off') ∧ SpillReady s' R off' ∧
      (∀ a, InBody s.f a → s.f.insn a = mkAlloc .t64 → InBody s'.f a ∧ s'.f.insn a = mkAlloc .t64) ∧
      ∀ W : World, (∀ a, InBody s'.f a → s'.f.insn a = mkAlloc .t64 → W.wid a = 8) → ∀ τ, Loc.Keeps W s.f (places s.pos) s'.f (places s'.pos) τ
  | [], s, off, h, _ => ⟨s, off, rfl, h, fun a h1 h2 => ⟨h1, h2⟩, fun _ _ _ => keeps_refl⟩
  | vs :: vss, s, off, h, hc => by
    obtain ⟨hv, hn, hc⟩ := hc
    obtain ⟨s1, e1, hB, hp, hF, hk, -, hop, -, h64, -⟩ := spill_ok vs s off h.base ⟨h.le, h.pos⟩ h.fresh hv hn
    obtain ⟨s', off', e2, hr, hm, hk2⟩ := rounds_ok vss s1 _ (hB.ready hp hF) (hc _ _ e1)
    refine ⟨s', off', by unfold rounds; rw [e1, Out.ok_bind]; exact e2, hr, fun a ha h1 => hm a (hop a ha).2 (h64 a ha h1), fun W hW τ => ?_⟩
    exact keeps_trans (hk W (fun a ha h1 => hW a (hm a ha h1).1 (hm a ha h1).2) τ) (hk2 W hW τ)

/-- **C54** (partial): code generation up to register assignment.  For a function in SSA form, lowering of calls and arguments, `spill_array`, `spill_const` and any rounds
of spilling succeed.  The resulting function, in which values are in machine registers, virtual registers and stack slots, does what the function in SSA form does: on every
execution it returns the same value, leaves the same memory and makes the same calls with the same arguments.  It can be spilled further, and no instruction of the prepared function has
a constant where the machine has none.  Missing: what is assumed of the function (`Ready`, `Neat`): in particular nothing jumps to the entry. -/
theorem C54_front_partial {f : Fn} {R : List Nat} (hr : Ready f R) (hn : Neat f R)
    (ha : ∀ b ∈ R, ∀ x ∈ f.body b, (f.insn x).op = .allocarray → 0 < arrBytes (f.insn x) ∧ arrBytes (f.insn x) + 7 < 2 ^ 32) :
    ∃ s off, prepare f R = .ok (s, off) ∧ (∀ b ∈ R, ∀ x ∈ s.f.body b, ∀ j, ¬ Unfit (s.f.insn x) j) ∧
      ∀ vss, Choices vss s off → ∃ s' off', rounds vss s off = .ok (s', off') ∧ SpillReady s' R off' ∧
        ∀ W σ τ, Starts f σ τ → (∀ a, InBody s'.f a → s'.f.insn a = mkAlloc .t64 → W.wid a = 8) → Lower.Keeps W f s'.f (places s'.pos) σ τ := by
  obtain ⟨s0, rn, H, N, M, e0, h, C, A, hl, hC, -⟩ := lower_ok hr
  have h0 := lower_ready hr hn h hl hC
  obtain ⟨s1, off1, e1, -, h1, -, -, k1⟩ := C54_arrays h0 hr.nodup (lower_arrays hr hl hC ha)
  obtain ⟨s2, e2, h2, hu, -, -, k2⟩ := C53_const h1 hr.nodup
  refine ⟨s2, off1, ?_, hu, fun vss hv => ?_⟩
  · unfold prepare
    rw [e0, Out.ok_bind, e1, Out.ok_bind]
    dsimp only
    rw [e2, Out.ok_bind]
  · obtain ⟨s', off', e3, h3, -, k3⟩ := rounds_ok vss s2 off1 h2 hv
    exact ⟨s', off', e3, h3, fun W σ τ hs hW => lower_keeps_trans (lowd_keeps hr h hs) (keeps_trans (keeps_trans (k1 W τ) (k2 W τ)) (k3 W hW τ))⟩

/-! ## Example -/

/-- A test for `Neat`; `E` are the places needed at the start of the code of the blocks. -/
def neatB (f : Fn) (R : List Nat) (E : Nat → List Nat) : Bool :=
  flowB f R &&
  (f.sp :: f.args).all (fun x => decide (operands (f.insn x) = [])) &&
  f.allBbs.all (fun b => (codeOf f b).all fun x => decide ((f.insn x).op ≠ .phi)) &&
  f.allBbs.all (fun b => (f.body b).all fun x => !decide ((f.insn x).op = .phi) || decide ((f.insn x).vals = [])) &&
  f.allBbs.all (fun b => (f.body b).all fun x => (f.insn x).phi.all fun o => decide (o.1 ∈ f.allBbs)) &&
  f.allBbs.all (fun b => (f.body b).all fun x => !decide ((f.insn x).op = .load ∨ (f.insn x).op = .store) ||
    match (f.insn x).vals with | .insn a :: _ => decide ((f.insn a).op = .alloc) | _ => false) &&
  R.all (fun b => (needL f virt E b (codeOf f b)).all (fun q => decide (q ∈ E b))) &&
  (needL f virt E f.entry (f.body f.entry)).all (fun q => decide ((f.insn ((q - 13) / 3)).op ≠ .alloc)) &&
  R.all (fun b => (codeOf f b).all fun x => !decide ((f.insn x).op = .loadraw) || decide ((f.insn x).vals = []))

theorem neat_of_check {f : Fn} {R : List Nat} {E : Nat → List Nat} (h : neatB f R E = true) : Neat f R := by
  simp only [neatB, Bool.and_eq_true, List.all_eq_true, decide_eq_true_eq, Bool.or_eq_true, Bool.not_eq_true', decide_eq_false_iff_not] at h
  obtain ⟨⟨⟨⟨⟨⟨⟨⟨h1, h2⟩, h3⟩, h4⟩, h5⟩, h6⟩, h7⟩, h8⟩, h9⟩ := h
  have hf := flow_of_check h1
  refine ⟨fun y hy z => ?_, h3, ?_, ?_, ?_, fun a ha hn => ?_, fun b hb x hx ho => ?_⟩
  · have := h2 y (by simpa using hy)
    rw [refs_eq, this]; rfl
  · rintro x ⟨b, hb, hx⟩ hop
    exact (h4 b hb x hx).resolve_left (fun h => h hop)
  · rintro x ⟨b, hb, hx⟩
    exact h5 b hb x hx
  · rintro x ⟨b, hb, hx⟩ hop
    rcases h6 b hb x hx with h | h
    · exact absurd hop h
    · split at h
      · rename_i a r e
        exact ⟨a, r, e, by simpa using h⟩
      · cases h
  · have := h8 _ (needL_of hf.succs h7 hn hf.entry)
    have e : (virt a - 13) / 3 = a := by unfold virt; omega
    rw [e] at this
    exact this ha
  · exact (h9 b hb x hx).resolve_left (fun h => h ho)

/-- As `callF`, with an array of five bytes whose address is passed to the helper, a difference with a constant on the left and a variable of the function. -/
def frontF : Fn := mkArgs [1, 2] [
  ([(11, { op := .alloc, vrType := .t64 }), (12, { op := .allocarray, vrType := .t8, aux := 5 }), (13, { op := .allocarray, vrType := .t32, aux := 3 }),
    (14, { op := .store, vals := [.insn 11, .insn 2] }), (15, mkJa 1)], [1]),
  ([(16, { op := .phi, phi := [(0, .insn 1), (1, .insn 19)] }), (17, { op := .load, vals := [.insn 11], vrType := .t64 }),
    (18, { op := .call, aux := 1, vals := [.insn 12, .insn 16] }), (19, mkBin .sub .w64 (c64 7) (.insn 17)),
    (20, mkJbin .jlt .w64 (.insn 18) (.insn 1) 2 1)], [2, 1]),
  ([(21, mkBin .add .w64 (.insn 19) (.insn 18)), (22, mkRet (.insn 21))], [])]

theorem frontF_ok : Ok frontF := ok_of_check (by decide +kernel) (fun _ h => mkFn_body h)

theorem frontF_ready : Ready frontF frontF.allBbs :=
  low_of_check (E := fun b => if b = 0 then [1, 2, 11] else if b = 1 then [1, 11, 12] else [18, 19]) (by decide +kernel) frontF_ok

theorem frontF_neat : Neat frontF frontF.allBbs :=
  neat_of_check (E := fun b => [0, 1, 2, 3, 4, 5] ++ if b = 0 then [virt 1, virt 2, virt 18] else if b = 1 then [virt 1, virt 11, virt 12, virt 16, virt 18] else [virt 18, virt 19]) (by decide +kernel)

theorem frontF_arrays : ∀ b ∈ frontF.allBbs, ∀ x ∈ frontF.body b, (frontF.insn x).op = .allocarray → 0 < arrBytes (frontF.insn x) ∧ arrBytes (frontF.insn x) + 7 < 2 ^ 32 := by
  decide +kernel

/-- A test for `Choices`. -/
def choicesB : List (List Nat) → Cg → Int → Bool
  | [], _, _ => true
  | vs :: vss, s, off => vs.all (fun v => s.f.allBbs.any (fun b => decide (v ∈ s.f.body b)) && hasResult (s.f.insn v).op && decide ((s.f.insn v).op ≠ .allocarray) &&
      !(s.pos v).allocated) && decide vs.Nodup && match spill vs s off with | .ok (s', off') => choicesB vss s' off' | _ => true

theorem choices_of_check : ∀ {vss : List (List Nat)} {s : Cg} {off : Int}, choicesB vss s off = true → Choices vss s off
  | [], _, _, _ => trivial
  | vs :: vss, s, off, h => by
    simp only [choicesB, Bool.and_eq_true, List.all_eq_true, decide_eq_true_eq, Bool.not_eq_true', List.any_eq_true] at h
    obtain ⟨⟨h1, h2⟩, h3⟩ := h
    refine ⟨fun v hv => ?_, h2, fun s' off' e => ?_⟩
    · obtain ⟨⟨⟨⟨b, hb, hx⟩, k2⟩, k3⟩, k4⟩ := h1 v hv
      exact ⟨⟨b, hb, hx⟩, ⟨k2, k3⟩, k4⟩
    · rw [e] at h3
      exact choices_of_check h3

/-- Two rounds: the variable and the phi, then the difference.  The arrays take 8 and 16 bytes, the slots are below them. -/
example : onOk (prepare frontF frontF.allBbs) (fun r => choicesB [[11, 16], [19]] r.1 r.2 && (r.2 == -24) && onOk (rounds [[11, 16], [19]] r.1 r.2) (fun t =>
    (t.2 == -48) && ((t.1.pos 12).spilled == -8) && ((t.1.pos 13).spilled == -24) && ((t.1.pos 11).spilled == -32) &&
    (match IR.runFn countW frontF 40 ⟨fun y => BitVec.ofNat 64 y, fun a => BitVec.ofNat 64 (virt a), fun _ => 0, []⟩, Loc.runFn countW t.1.f (places t.1.pos) 80 st0 with
      | .done x σ, .done y τ => x == y && (σ.trace == τ.trace) && (τ.trace.length == 2)
      | _, _ => false))) = true := by
  decide +kernel

end Verif.Cg
