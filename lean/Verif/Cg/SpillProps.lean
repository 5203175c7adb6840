import Verif.Cg.SpillAll
import Verif.Cg.NeedCheck
import Verif.Cg.Examples
/-!
# C40: spilling keeps the meaning
-/
namespace Verif.Cg
open Verif Verif.IR Verif.Edit Verif.Loc
open Verif.Norm (VrPos)

theorem SpillReady.base {s : Cg} {R : List Nat} {off : Int} (h : SpillReady s R off) : Base s.f R :=
  ⟨h.tidy, h.flow, h.sub, h.entry, fun y w hw _ hr => (h.users y (h.tidy.closed w y hw hr)).1 w hw hr, fun y hy => (h.users y hy).2, h.front, h.access, h.raws, h.labels, h.phis⟩

theorem Base.ready {s : Cg} {R : List Nat} {off : Int} (h : Base s.f R) (hp : PosOk s.pos off) (hF : FreshV s) : SpillReady s R off :=
  ⟨h.tidy, fun y hy => ⟨fun x hx => h.cover y x hx (fun h => h), h.users y hy⟩, h.flow, h.sub, h.entry0, h.front, h.access, h.raws, h.labels, h.phiVals, hF, hp.1, hp.2⟩

/-- **C40** (partial): `spill` succeeds and takes eight bytes of the stack for each instruction.  The instruction number `i` gets the slot at the offset
`off - 8 * (i + 1)`: if it is a variable, it is in the slot itself; otherwise its only remaining use is a store to a new variable in the slot, so every
other use has been replaced by a load.  The function does the same as before: it returns the same value, leaves the same memory and makes the same calls
with the same arguments, and it can be spilled again.  `W` says how wide the variables are; the new ones are 64 bits wide.  Missing: a variable narrower than 64 bits is as wide
in a register as in its slot here; values that are read before they are written (`SpillReady.fresh`). -/
theorem C40_spill_partial {s : Cg} {R : List Nat} {off : Int} {vs : List Nat} (h : SpillReady s R off) (hv : ∀ v ∈ vs, Victim s v) (hn : vs.Nodup) :
    ∃ s', spill vs s off = .ok (s', off - 8 * vs.length) ∧ SpillReady s' R (off - 8 * vs.length) ∧
      (∀ i (h : i < vs.length), if (s.f.insn vs[i]).op = .alloc then (s'.pos vs[i]).allocated = true ∧ (s'.pos vs[i]).spilled = off - 8 * (i + 1)
        else Through s' (off - 8 * (i + 1)) vs[i]) ∧
      ∀ W : World, (∀ a, InBody s'.f a → s'.f.insn a = mkAlloc .t64 → W.wid a = 8) → ∀ τ, Loc.Keeps W s.f (places s.pos) s'.f (places s'.pos) τ := by
  obtain ⟨s', h1, h4, h5, h6, h2, h3, -⟩ := spill_ok vs s off h.base ⟨h.le, h.pos⟩ h.fresh hv hn
  exact ⟨s', h1, h4.ready h5 h6, h3, h2⟩

/-- **C40**: calls and arrays are not spilled. -/
theorem C40_calls {s : Cg} {v : Nat} {off : Int} (h : (s.f.insn v).op = .call ∨ (s.f.insn v).op = .allocarray) (vs : List Nat) : spill (v :: vs) s off = .crit := by
  unfold spill spillOne
  rw [if_pos h]
  rfl

/-! ## Example -/

/-- A test for `SpillReady` and `Victim`; `E` are the places needed at the start of the code of the blocks. -/
def spillB (s : Cg) (R : List Nat) (E : Nat → List Nat) (vs : List Nat) : Bool :=
  flowB s.f R && R.all (fun b => decide (b ∈ s.f.allBbs)) && decide (phisOf s.f s.f.entry = []) &&
  (s.f.sp :: s.f.args).all (fun x => decide (operands (s.f.insn x) = [])) &&
  s.f.allBbs.all (fun b => (codeOf s.f b).all fun x => decide ((s.f.insn x).op ≠ .phi)) &&
  s.f.allBbs.all (fun b => (s.f.body b).all fun x => !decide ((s.f.insn x).op = .load ∨ (s.f.insn x).op = .store) ||
    match (s.f.insn x).vals with | .insn a :: _ => decide ((s.f.insn a).op = .alloc) | _ => false) &&
  s.f.allBbs.all (fun b => (codeOf s.f b).all fun x => !decide ((s.f.insn x).op = .call ∨ (s.f.insn x).op = .loadraw) || decide ((s.f.insn x).vals = [])) &&
  s.f.allBbs.all (fun b => (s.f.body b).all fun x => (s.f.insn x).phi.all fun o => decide (o.1 ∈ s.f.allBbs)) &&
  s.f.allBbs.all (fun b => (s.f.body b).all fun x => !decide ((s.f.insn x).op = .phi) || decide ((s.f.insn x).vals = [])) &&
  R.all (fun b => (needL s.f (places s.pos) E b (codeOf s.f b)).all (fun q => decide (q ∈ E b))) &&
  vs.all (fun v => s.f.allBbs.any (fun b => decide (v ∈ s.f.body b)) && hasResult (s.f.insn v).op && decide ((s.f.insn v).op ≠ .allocarray) &&
    !(s.pos v).allocated) &&
  (needL s.f (places s.pos) E s.f.entry (s.f.body s.f.entry)).all (fun q => decide (q ≤ 10))

theorem spill_of_check {s : Cg} {R : List Nat} {E : Nat → List Nat} {vs : List Nat} {off : Int} (h : spillB s R E vs = true) (ho : Ok s.f) (h0 : off ≤ 0)
    (hp : ∀ x, (s.pos x).allocated = true → off ≤ (s.pos x).spilled) : SpillReady s R off ∧ ∀ v ∈ vs, Victim s v := by
  simp only [spillB, Bool.and_eq_true, List.all_eq_true, decide_eq_true_eq, Bool.or_eq_true, Bool.not_eq_true', decide_eq_false_iff_not, List.any_eq_true] at h
  obtain ⟨⟨⟨⟨⟨⟨⟨⟨⟨⟨⟨h1, h2⟩, h3⟩, h4⟩, h5⟩, h6⟩, h7⟩, h8⟩, h9⟩, h10⟩, h11⟩, h12⟩ := h
  have hf := flow_of_check h1
  refine ⟨⟨ho.tidy, ?_, hf, h2, h3, h5, ?_, ?_, ?_, ?_, ?_, h0, hp⟩, fun v hv => ?_⟩
  · intro y hy
    refine ⟨fun x hx hr => ((ho.users y hy).1 x hx).2 hr, fun x hm => ?_⟩
    have hx := (ho.users y hy).2 x hm
    have hr : 0 < refs (s.f.insn x) y := Nat.lt_of_lt_of_le (List.count_pos_iff.2 hm) ((ho.users y hy).1 x hx).1
    have key : x ∈ s.f.sp :: s.f.args → False := fun hx => by rw [refs_eq, h4 x hx] at hr; simp at hr
    rcases hx with e | e | e
    · exact (key (by rw [e]; exact List.mem_cons_self)).elim
    · exact (key (List.mem_cons_of_mem _ e)).elim
    · exact e
  · rintro x ⟨b, hb, hx⟩ hop
    rcases h6 b hb x hx with h | h
    · exact absurd hop h
    · split at h
      · rename_i a r e
        exact ⟨a, r, e, by simpa using h⟩
      · cases h
  · intro b hb x hx hop
    rcases h7 b (h2 b hb) x hx with h | h
    · exact absurd hop h
    · exact h
  · rintro x ⟨b, hb, hx⟩
    exact h8 b hb x hx
  · rintro x ⟨b, hb, hx⟩ hop
    rcases h9 b hb x hx with h | h
    · exact absurd hop h
    · exact h
  · intro n hn
    have := h12 _ (needL_of hf.succs h10 hn hf.entry)
    have := virt_big n
    omega
  · obtain ⟨⟨⟨⟨b, hb, hx⟩, k2⟩, k3⟩, k4⟩ := h11 v hv
    exact ⟨⟨b, hb, hx⟩, ⟨k2, k3⟩, k4⟩

/-- A loop with a call and a variable: 17 puts the argument in r1, 19 takes the result from r0. -/
def spF : Fn := mkFn [
  ([(11, mkAssign (.insn 1)), (12, { op := .alloc, vrType := .t64 }), (13, { op := .store, vals := [.insn 12, .insn 11] }), (14, mkJa 1)], [1]),
  ([(15, { op := .phi, phi := [(0, c64 0), (1, .insn 20)] }), (16, { op := .load, vals := [.insn 12], vrType := .t64 }),
    (17, mkAssign (.insn 15)), (18, { op := .call, aux := 17 }), (19, mkAssign (.insn 0)), (20, mkBin .add .w64 (.insn 19) (.insn 16)),
    (21, mkJbin .jlt .w64 (.insn 20) (.insn 15) 2 1)], [2, 1]),
  ([(22, mkRet (.insn 20))], [])]

/-- Its positions. -/
def spS : Cg := ⟨spF, fun x => if h : x < 11 then ⟨true, ⟨x, h⟩, 0⟩ else if x = 17 then ⟨true, 1, 0⟩ else noPos⟩

theorem spS_ok : SpillReady spS spF.allBbs (-16) ∧ ∀ v ∈ [15, 12, 20], Victim spS v := by
  refine spill_of_check (s := spS) (off := -16) (E := fun b => if b = 0 then [0, 1, virt 12] else if b = 1 then [0, 1, virt 12, virt 15] else [virt 20]) (by decide +kernel)
    (ok_of_check (by decide +kernel) (fun _ h => mkFn_body h)) (by decide) (fun x hx => ?_)
  simp only [spS] at hx ⊢
  split
  · show (-16 : Int) ≤ 0; decide
  · split <;> decide

/-- The phi 15 is stored behind the phis and loaded for the copy and the jump, the variable 12 gets a slot, and 20 is loaded at the end of the block for the phi. -/
example : onOk (spill [15, 12, 20] spS (-16)) (fun r => (r.2 == -40) && (r.1.f.body 1 == [15, 24, 16, 25, 17, 18, 19, 20, 28, 26, 29, 30, 21]) &&
    ((r.1.f.insn 15).phi == [(0, c64 0), (1, .insn 29)]) && ((r.1.f.insn 21).vals == [.insn 30, .insn 26]) && ((r.1.pos 12).spilled == -32)) = true := by
  decide +kernel

end Verif.Cg
