import Verif.Pipe.Lift
import Verif.Lift.Props
/-!
# C58: what the lifter hands to the passes
-/
namespace Verif.Pipe
open Verif Verif.IR
open Verif.Bpf (Slot Instr decode flow WellShaped Closed)
open Verif.GenBB (Blk zeroJump)
open Verif.Lift (toFn Lifted)
open Verif.Flatten (graphOf)

theorem usual_zero {P : List Slot} (hl : Bpf.Legal P) (hu : ∀ s ∈ P, ∀ i, decode s = some i → Usual i) :
    ∀ s ∈ P.map zeroJump, ∀ i, decode s = some i → Usual i := by
  intro s hs i hd
  obtain ⟨p, hp⟩ := List.getElem?_of_mem hs
  obtain ⟨s', h1, rfl⟩ := GenBB.get_map hp
  rcases Lift.decode_zeroJump hl h1 with e | ⟨e, _⟩
  · rw [e] at hd; exact hu s' (List.mem_of_getElem? h1) i hd
  · rw [e] at hd; cases hd; trivial

theorem closed_zero {P : List Slot} (hl : Bpf.Legal P) (hc : Closed P) : Closed (P.map zeroJump) :=
  ⟨by simpa using hc.1, fun p hp q hq => by
    have := hc.2 p (by simpa using hp) q ((Lift.flow_zero hl p q).1 hq)
    simpa using this⟩

/-- The parts of a lifted function. -/
theorem lifted_parts {P : List Slot} (hw : WellShaped P) (hlen : P.length ≤ 32768) {n : Nat} {f : Fn} (hf : Lift.lift n P = .ok f) :
    ∃ C g s, Lifted (P.map zeroJump) C g s ∧ f = toFn C s := by
  have hw' := Lift.wellShaped_zero hw
  obtain ⟨C, h1, hG⟩ := Lift.graph_of hw' (Lift.map_idem P) (by simpa using hlen)
  rw [Lift.genBB_idem] at h1
  unfold Lift.lift at hf
  obtain ⟨C', h0, hf⟩ := Out.bind_eq_ok.1 hf
  rw [h1] at h0; cases h0
  obtain ⟨s, h2, h3⟩ := Out.bind_eq_ok.1 hf
  cases h3
  have hpos : 0 < C.length := by
    obtain ⟨b, k, hk, _⟩ := (hG.start 0).2 (.inl rfl)
    have := (List.getElem?_eq_some_iff.1 hk).1
    omega
  obtain ⟨g, h⟩ := Lift.lifted_of hG hpos h2
  exact ⟨C, g, s, h, rfl⟩

theorem lift_code {P : List Slot} (hw : WellShaped P) (hc : Closed P) (hlen : P.length ≤ 32768) (hu : ∀ sl ∈ P, ∀ i, decode sl = some i → Usual i)
    {n : Nat} {f : Fn} (hf : Lift.lift n P = .ok f) :
    ∃ g', Layout.genSucc (graphOf f) f.allBbs = .ok g' ∧ SameFlow f (withSuccs f g') ∧ Code (withSuccs f g') := by
  obtain ⟨C, g, s, h, rfl⟩ := lifted_parts hw hlen hf
  exact lifted_code h (closed_zero hw.legal hc) (usual_zero hw.legal hu)

/-- `post` on a function whose successor arrays are not in order yet. -/
theorem post_of {f : Fn} {g' : Layout.Graph} (hg : Layout.genSucc (graphOf f) f.allBbs = .ok g') (h : Code (withSuccs f g')) :
    ∃ k R, LaidOut (withSuccs f g') R ∧ ∀ fuel, k ≤ fuel → ∀ check, post fuel check f = .ok (withSuccs f g', R) := by
  obtain ⟨k, R, h2, _, hk⟩ := h.post
  refine ⟨k, R, h2, fun fuel hf check => ?_⟩
  rw [← hk fuel hf check]
  unfold post
  rw [hg, h.genSucc, Out.ok_bind, Out.ok_bind]
  rfl

/-- C58.  For every well-shaped program of at most 32768 slots from which control never runs off the end, whose byte swaps have
a width of 16, 32 or 64 and which does not call helper 0: if SSA construction ends, then bpf_ir_lift succeeds with the checker on or off
(given enough fuel for the walk over the blocks).  The reachable blocks are all blocks, each once, the entry first, and each block that runs on stands
directly in front of the block it runs on to.  The function is well-formed, in SSA form with uses behind their definitions, its predecessor and successor
arrays agree, and it runs exactly as SSA construction left it. -/
theorem C58_lifted {P : List Slot} (hw : WellShaped P) (hc : Closed P) (hlen : P.length ≤ 32768)
    (hu : ∀ sl ∈ P, ∀ i, decode sl = some i → Usual i) {n : Nat} {f : Fn} (hf : Lift.lift n P = .ok f) :
    ∃ f' R k, (∀ fuel, k ≤ fuel → ∀ check, lift n fuel check P = .ok (f', R)) ∧ LaidOut f' R ∧ WellFormed f' R ∧
      Ssa f' ∧ Ordered f' ∧ EndsLast f' ∧ UsersListed f' ∧ IR.Graph f' ∧ (∀ b ∈ f'.allBbs, Conn f' b) ∧
      ∀ W m τ, runFn W f' m τ = runFn W f m τ := by
  obtain ⟨g', h1, h2, h3⟩ := lift_code hw hc hlen hu hf
  obtain ⟨k, R, hl, hk⟩ := post_of h1 h3
  refine ⟨_, R, k, fun fuel hfu check => ?_, hl, h3.wellFormed fun b hb => (hl.mem b).1 hb, h3.ssa, h3.ordered, h3.last, listed h3.ok.users, h3.graph, h3.conn, fun W m τ => ?_⟩
  · unfold lift
    rw [hf, Out.ok_bind, hk fuel hfu check]
  · exact h2.run W m τ

/-! ## An example -/

def usualB : Instr → Bool
  | .swap _ _ wd => wd == 16 || wd == 32 || wd == 64
  | .call fid => fid != 0
  | _ => true

theorem usual_all {P : List Slot} (h : P.all (fun s => match decode s with | some i => usualB i | none => true) = true) :
    ∀ sl ∈ P, ∀ i, decode sl = some i → Usual i := by
  intro sl hs i hi
  have := List.all_eq_true.1 h sl hs
  rw [hi] at this
  cases i <;> simp_all [usualB, Usual, or_assoc]

def closedB (P : List Slot) : Bool := !P.isEmpty && (List.range P.length).all fun p => (flow P p).all fun q => decide (q < P.length)

theorem closedB_sound {P : List Slot} (h : closedB P = true) : Closed P := by
  unfold closedB at h
  rw [Bool.and_eq_true] at h
  refine ⟨by simpa using h.1, fun p hp q hq => ?_⟩
  have := List.all_eq_true.1 (List.all_eq_true.1 h.2 p (List.mem_range.2 hp)) q hq
  simpa using this

/-- The conditions of `C58_lifted` hold for `exL`, a program with a loop. -/
example : WellShaped Lift.exL ∧ Closed Lift.exL ∧ Lift.exL.length ≤ 32768 ∧ (∀ sl ∈ Lift.exL, ∀ i, decode sl = some i → Usual i) ∧ (Lift.lift 100 Lift.exL).isOk = true :=
  ⟨Lift.wsB_sound (n := 12) (by decide +kernel), closedB_sound (by decide +kernel), by decide, usual_all (by decide +kernel), by decide +kernel⟩

/-- Its blocks are laid out in this order. -/
example : (match lift 100 100 true Lift.exL with | .ok (_, R) => R | _ => []) = [0, 1, 2, 3] := by decide +kernel

end Verif.Pipe
