import Verif.Cg.LowerFn
import Verif.Cg.Examples
import Verif.Cg.NeedCheck
/-!
# Properties of the lowering of calls and arguments
-/
namespace Verif.Cg
open Verif Verif.IR Verif.Edit Verif.Loc Verif.Lower

/-- **C41** (partial): `init_cg`, `change_call` and `change_fun_arg` succeed.  Afterwards every call stands right behind copies of its arguments into
r1, r2, ..., in this order, and, if its result is used, right in front of a copy of r0.  If the lowered function is run on places, where calls take
their arguments from r1, r2, ..., put the result into r0 and destroy r1..r5, it does what the SSA function does: it returns the same value and makes the
same calls with the same arguments.  Missing: functions in which something jumps to the entry, see `C41_violated`; functions with unlisted uses; that
register assignment keeps the contents of r1..r5 between the copies and the call, see `C52_registers_partial`. -/
theorem C41_lower_partial {f : Fn} {R : List Nat} (hr : Ready f R) : ∃ s, lower f R = .ok s ∧
    (∀ b ∈ R, ∀ x ∈ f.body b, (f.insn x).op = .call → (s.f.insn x).vals = [] ∧ (s.f.insn x).op = .call ∧ (s.f.insn x).aux = (f.insn x).aux ∧
      ∃ pre ns post, s.f.body b = pre ++ (ns ++ x :: post) ∧ ns.map (places s.pos) = List.range' 1 (f.insn x).vals.length ∧
        (∀ n ∈ ns, (s.f.insn n).op = .assign) ∧
        ((∃ u, Live f u ∧ 0 < refs (f.insn u) x) → ∃ r q rest, post = r :: rest ∧ s.f.insn r = mkAssign (.insn q) ∧ places s.pos q = 0)) ∧
    ∀ W σ τ, Starts f σ τ → Lower.Keeps W f s.f (places s.pos) σ τ := by
  obtain ⟨s, rn, H, N, M, e, h, -⟩ := lower_ok hr
  refine ⟨s, e, fun b hb x hx hc => ?_, fun W σ τ hs => lowd_keeps hr h hs⟩
  obtain ⟨h1, h2, h3⟩ := h.call b hb x hx hc
  refine ⟨by rw [h1], by rw [h1]; exact hc, by rw [h1], ?_⟩
  obtain ⟨A, B, eA⟩ := List.append_of_mem (call_code hx hc)
  refine ⟨phisOf f b ++ (H b ++ ex N M A), N x, M x ++ ex N M B, ?_, ?_, ?_, fun ⟨u, hu, hru⟩ => ?_⟩
  · rw [← phisOf_append s.f b, (h.body b hb).1, (h.body b hb).2, eA, ex_append, ex_cons]
    simp only [List.append_assoc, List.cons_append]
  · have : ∀ {vs : List Val} {i : Nat} {ns : List Nat}, ArgsAt s.f (places s.pos) rn i vs ns → ns.map (places s.pos) = List.range' (i + 1) vs.length := by
      intro vs
      induction vs with
      | nil => intro i ns h; cases h; rfl
      | cons v vs ih =>
        rintro i ns ⟨n, r, e, _, h5, h6⟩
        subst e
        rw [List.map_cons, h5, ih h6]
        rfl
    exact this h2
  · have : ∀ {vs : List Val} {i : Nat} {ns : List Nat}, ArgsAt s.f (places s.pos) rn i vs ns → ∀ n ∈ ns, (s.f.insn n).op = .assign := by
      intro vs
      induction vs with
      | nil => intro i ns h n hn; cases h; cases hn
      | cons v vs ih =>
        rintro i ns ⟨m, r, e, h4, h5, h6⟩ n hn
        subst e
        rcases List.mem_cons.1 hn with rfl | hn
        · rw [h4]; rfl
        · exact ih h6 n hn
    exact this h2
  · rcases h3 with ⟨_, h4⟩ | ⟨h4, h5⟩
    · exact absurd (h4 u hu) (Nat.ne_of_gt hru)
    · exact ⟨rn x, rgOf f 0, ex N M B, by rw [h4]; rfl, h5, h.regs 0 (by omega)⟩

/-! ## Example -/

/-- A test for `Ready`; `E` are the values needed at the start of the blocks. -/
def lowB (f : Fn) (R : List Nat) (E : Nat → List Nat) : Bool :=
  flowB f R && R.all (fun b => decide (b ∈ f.allBbs)) && decide R.Nodup && decide (phisOf f f.entry = []) &&
  R.all (fun b => decide (f.entry ∉ f.succs b)) && decide (f.args.length ≤ 5) && decide f.args.Nodup && decide (f.sp ∉ f.args) &&
  (f.sp :: f.args).all (fun y => decide ((f.insn y).op ≠ .alloc)) &&
  R.all (fun b => (f.body b).all fun x => (ids (operands (f.insn x))).all fun a => decide ((f.insn a).op ≠ .alloc) || decide ((f.insn x).op = .load) ||
    (decide ((f.insn x).op = .store) && match (f.insn x).vals with | [.insn a', v] => decide (a' = a) && decide (v ≠ .insn a) | _ => false)) &&
  R.all (fun b => (f.body b).all fun x => !decide ((f.insn x).op = .load ∨ (f.insn x).op = .store) ||
    match (f.insn x).vals.head? with | some (.insn a) => decide ((f.insn a).op = .alloc) | _ => true) &&
  R.all (fun b => (need f (own f) E b (f.body b)).all (fun v => decide (v ∈ E b))) &&
  (need f (own f) E f.entry (f.body f.entry)).all (fun y => decide (y = f.sp ∨ y ∈ f.args ∨ (f.insn y).op = .alloc)) &&
  R.all (fun b => (f.body b).all fun x => !decide ((f.insn x).op = .call) ||
    decide ((f.insn x).vals.length = Lift.arity (f.insn x).aux ∧ (f.insn x).vals.length ≤ 5))

theorem low_of_check {f : Fn} {R : List Nat} {E : Nat → List Nat} (h : lowB f R E = true) (ho : Ok f) : Ready f R := by
  simp only [lowB, Bool.and_eq_true, List.all_eq_true, decide_eq_true_eq, Bool.or_eq_true, Bool.not_eq_true', decide_eq_false_iff_not] at h
  obtain ⟨⟨⟨⟨⟨⟨⟨⟨⟨⟨⟨⟨⟨h1, h2⟩, h3⟩, h4⟩, h5⟩, h6⟩, h7⟩, h8⟩, h9⟩, h10⟩, h11⟩, h12⟩, h13⟩, h14⟩ := h
  have hf := flow_of_check h1
  refine ⟨ho.tidy, ?_, hf, h2, h3, h4, h5, h6, h7, h8, ?_, ?_, ?_, ?_, ?_⟩
  · intro y hy
    refine ⟨fun x hx => ⟨fun hm => ?_, fun hr => ((ho.users y hy).1 x hx).2 hr⟩, (ho.users y hy).2⟩
    have := ((ho.users y hy).1 x hx).1
    have := List.count_pos_iff.2 hm
    omega
  · rintro y (rfl | hy)
    · exact h9 _ List.mem_cons_self
    · exact h9 y (List.mem_cons_of_mem _ hy)
  · intro b hb x hx a ha hr
    rcases h10 b hb x hx a (mem_ids.2 (refs_pos.1 hr)) with (h | h) | ⟨h, h'⟩
    · exact absurd ha h
    · exact .inl h
    · refine .inr ⟨h, ?_⟩
      split at h'
      · rename_i a' v e
        simp only [Bool.and_eq_true, decide_eq_true_eq] at h'
        obtain ⟨rfl, h'⟩ := h'
        exact ⟨v, e, h'⟩
      · cases h'
  · intro b hb x hx hop a ha
    rcases h11 b hb x hx with h | h
    · exact absurd hop h
    · rw [ha] at h
      simpa using h
  · intro y hn
    exact h13 y (need_of hf.succs h12 hn hf.entry)
  · intro b hb x hx hc
    rcases h14 b hb x hx with h | h
    · exact absurd hc h
    · exact h

/-- As `mkFn`, with the arguments `args`. -/
def mkArgs (args : List Nat) (bs : List (List (Nat × Insn) × List Nat)) : Fn := { mkFn bs with args := args }

/-- A loop with a call of a helper with two arguments, a variable, and arguments 1 and 2. -/
def callF : Fn := mkArgs [1, 2] [
  ([(11, { op := .alloc, vrType := .t64 }), (12, { op := .store, vals := [.insn 11, .insn 2] }), (13, mkJa 1)], [1]),
  ([(14, { op := .phi, phi := [(0, .insn 1), (1, .insn 16)] }), (15, { op := .load, vals := [.insn 11], vrType := .t64 }),
    (16, { op := .call, aux := 1, vals := [.insn 15, .insn 14] }), (17, mkJbin .jlt .w64 (.insn 16) (.insn 1) 2 1)], [2, 1]),
  ([(18, mkRet (.insn 16))], [])]

theorem callF_ok : Ok callF := ok_of_check (by decide +kernel) (fun _ h => mkFn_body h)

theorem callF_ready : Ready callF callF.allBbs :=
  low_of_check (E := fun b => if b = 0 then [1, 2, 11] else if b = 1 then [1, 11] else [16]) (by decide +kernel) callF_ok

/-- The copies in front of the call and behind it: 14 is the phi, 29 and 30 are in r1 and r2, 31 is the copy of r0, which the jump uses now. -/
example : onOk (lower callF callF.allBbs) (fun s => s.f.body 1 == [14, 15, 29, 30, 16, 31, 17] && (places s.pos 29 == 1) && (places s.pos 30 == 2) &&
    ((s.f.insn 29).vals == [.insn 15]) && ((s.f.insn 30).vals == [.insn 14]) && ((s.f.insn 16).vals == []) && (places s.pos (rgOf callF 0) == 0) &&
    ((s.f.insn 31).vals == [.insn (rgOf callF 0)]) && ((s.f.insn 17).vals.head? == some (.insn 31)) && (s.f.body 0 == [33, 32, 11, 12, 13])) = true := by
  decide +kernel

/-- Its start. -/
example : Starts callF ⟨fun y => if y = 1 ∨ y = 2 ∨ y = 10 then BitVec.ofNat 64 y else 0, fun a => BitVec.ofNat 64 (virt a), fun _ => 0, []⟩ st0 := by
  refine ⟨?_, rfl, fun _ _ => rfl, rfl, rfl⟩
  intro i a h
  have h : [1, 2][i]? = some a := h
  match i, h with
  | 0, h => cases h; rfl
  | 1, h => cases h; rfl
  | i + 2, h => simp at h

/-! ## Violation -/

/-- The helper returns how many calls have been made before, and leaves 99 in r1..r5. -/
def countW : IR.World := ⟨{ Lift.exW with call := fun tr _ _ mem => { ret := BitVec.ofNat 64 tr.length, mem := mem, clob := fun _ => 99 } }, fun _ => 0, fun _ => 8⟩

/-- The block 0 is the entry and a loop: the helper is called until it returns at least 1, then the argument is returned. -/
def entryLoop : Fn := mkArgs [1] [
  ([(11, { op := .call, aux := 17, vals := [.insn 1] }), (12, mkJbin .jlt .w64 (.insn 11) (c64 1) 1 0)], [1, 0]),
  ([(13, mkRet (.insn 1))], [])]

theorem run_stay {W : World} {f : Fn} {l : Nat → Nat} {x : BitVec 64} {τ' : Loc.St} : ∀ {n b rest τ}, Loc.run W f l n b rest τ = .done x τ' →
    ∀ m, n ≤ m → Loc.run W f l m b rest τ = .done x τ'
  | 0, _, _, _, h, _, _ => by cases h
  | n + 1, b, rest, τ, h, 0, hm => by omega
  | n + 1, b, rest, τ, h, m + 1, hm => by
    simp only [Loc.run] at h ⊢
    split at h
    · exact run_stay h m (by omega)
    · exact h
    · cases h
    · cases h

/-- **C41** is violated if something jumps to the entry: the copy of the argument is put at the start of the entry and made again in each iteration,
when the call has destroyed r1.  The second call gets 99 instead of the argument 1, and 99 is returned. -/
theorem C41_violated : ∃ s σ, Ok entryLoop ∧ Flow entryLoop entryLoop.allBbs ∧ lower entryLoop entryLoop.allBbs = .ok s ∧ Starts entryLoop σ st0 ∧
    ¬ Lower.Keeps countW entryLoop s.f (places s.pos) σ st0 := by
  have hs : onOk (lower entryLoop entryLoop.allBbs) (fun s => match Loc.runFn countW s.f (places s.pos) 20 st0 with
      | .done x τ => x == 99 && τ.trace == [⟨17, [1]⟩, ⟨17, [99]⟩] | _ => false) = true := by decide +kernel
  obtain ⟨s, e, h⟩ := of_onOk hs
  refine ⟨s, ⟨fun y => BitVec.ofNat 64 y, fun a => BitVec.ofNat 64 (virt a), fun _ => 0, []⟩, ok_of_check (by decide +kernel) (fun _ h => mkFn_body h),
    flow_of_check (by decide +kernel), e, ⟨?_, rfl, fun _ _ => rfl, rfl, rfl⟩, fun hk => ?_⟩
  · intro i a h
    have h : [1][i]? = some a := h
    match i, h with
    | 0, h => cases h; rfl
    | i + 1, h => simp at h
  · generalize hσ : (⟨fun y => BitVec.ofNat 64 y, fun a => BitVec.ofNat 64 (virt a), fun _ => 0, []⟩ : IR.St) = σ at hk
    have hi : (match IR.runFn countW entryLoop 20 σ with | .done x _ => x == 1 | _ => false) = true := by
      subst hσ
      decide +kernel
    split at hi
    · rename_i x σ' h1
      split at h
      · rename_i y τ' h2
        rcases hk 20 with h3 | ⟨m, hm, h3⟩
        · rw [h1] at h3; cases h3
        · rw [h1, show Loc.runFn countW s.f (places s.pos) m st0 = _ from run_stay h2 m hm] at h3
          cases h3
          simp only [beq_iff_eq, Bool.and_eq_true] at hi h
          rw [hi] at h
          exact absurd h.1 (by decide)
      · cases h
    · cases hi

end Verif.Cg
