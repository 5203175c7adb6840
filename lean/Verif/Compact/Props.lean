import Verif.Compact.Lemmas
import Verif.IR.SsaCheck
import Verif.Edit.Props
import Verif.Norm.Props
/-!
# Properties of code compaction
-/
namespace Verif.Compact
open Verif Verif.IR Verif.Edit

/-- What is asked of the function and of the list of reachable blocks. -/
structure Input (rs : List Nat) (f : Fn) : Prop where
  ok : Ok f
  ssa : Ssa f
  ord : Ordered f
  last : EndsLast f
  nodup : rs.Nodup
  reach : ∀ b ∈ rs, Reach f b
  arity : ∀ b ∈ rs, ∀ x ∈ f.body b, (f.insn x).op = .lsh ∨ (f.insn x).op = .rsh → (f.insn x).vals.length = 2

/-- The right shifts found have the width of their left shift. -/
def SameWidth (rs : List Nat) (f : Fn) : Prop :=
  ∀ c ∈ find rs f, ∀ p, (f.insn c).vals[0]? = some (.insn p) → (f.insn p).aluOp = (f.insn c).aluOp

theorem const_vals {i : Insn} {u : Nat} (hl : i.vals.length = 2) (h0 : i.vals[0]? = some (.insn u)) (h1 : constOf i.vals[1]? = some 32) :
    ∃ k1 k2, i.vals = [.insn u, .const .plain 32 k1 k2] := by
  match hv : i.vals, hl with
  | [v, w], _ =>
    rw [hv] at h0 h1
    simp only [List.getElem?_cons_zero, Option.some.injEq, List.getElem?_cons_succ] at h0 h1
    subst h0
    cases w with
    | const k c k1 k2 =>
      cases k with
      | plain => simp only [constOf, Option.some.injEq] at h1; subst h1; exact ⟨k1, k2, rfl⟩
      | rawoff => cases h1
      | rawoffRev => cases h1
    | insn => cases h1
    | undef => cases h1

theorem two_of_found {rs : List Nat} {f : Fn} (I : Input rs f) (hw : SameWidth rs f) {c : Nat} (hc : c ∈ find rs f) :
    ∃ p a b y, Two f p a c b y ∧ b ∈ rs := by
  obtain ⟨p, a, b, y, ha, hb, hpa, hcb, hop, hoc, hp0, hc0, hp1, hc1⟩ := (find_found c hc).ex
  exact ⟨p, a, b, y, ⟨⟨I.ok, I.ssa, I.ord, I.last⟩, I.reach a ha, I.reach b hb, hpa, hcb, hop, hoc,
    const_vals (I.arity a ha p hpa (.inl hop)) hp0 hp1, const_vals (I.arity b hb c hcb (.inr hoc)) hc0 hc1, hw c hc p hc0⟩, hb⟩

theorem find_nodup {rs : List Nat} {f : Fn} (I : Input rs f) : (find rs f).Nodup := by
  refine (find_sub rs f).nodup ?_
  have blk : ∀ b z, z ∈ f.body b → b ∈ f.allBbs := fun b z hz => Classical.byContradiction fun hn => by
    rw [I.ok.only b hn] at hz; cases hz
  have nd : ∀ b, (f.body b).Nodup := fun b => by
    by_cases hb : b ∈ f.allBbs
    · exact I.ok.tidy.nodup b hb
    · rw [I.ok.only b hb]; exact List.nodup_nil
  have key : ∀ l : List Nat, l.Nodup → (l.flatMap f.body).Nodup := by
    intro l
    induction l with
    | nil => intro _; simp
    | cons b l ih =>
      intro hn
      rw [List.nodup_cons] at hn
      rw [List.flatMap_cons, List.nodup_append]
      refine ⟨nd b, ih hn.2, fun x hx y hy e => ?_⟩
      subst e
      rw [List.mem_flatMap] at hy
      obtain ⟨d, hd, hxd⟩ := hy
      have := (I.ok.tidy.parent b (blk b x hx) x hx).symm.trans (I.ok.tidy.parent d (blk d x hxd) x hxd)
      exact hn.1 (by rw [this]; exact hd)
  exact key rs I.nodup

/-- C27, in part: when the shifts of each pair have the same width, the pass either fails, and then the result of one of
the left shifts is used elsewhere too, or it succeeds: exactly the left shifts are gone, each right shift has become a
32-bit move of what the left shift was applied to, nothing else has changed, every value computed by the new program is
that of the old one, and the behaviour is the same.  Missing: pairs of different widths (`C27_violated_width`), and the
generated code copies all 64 bits (`C27_violated_emitted`). -/
theorem C27_compact_partial {rs : List Nat} {f : Fn} (I : Input rs f) (hw : SameWidth rs f) :
    (compact rs f = .err ∧ ∃ c ∈ find rs f, ∃ p, (f.insn c).vals[0]? = some (.insn p) ∧ ∃ u, Live f u ∧ u ≠ c ∧ 0 < refs (f.insn u) p) ∨
    ∃ g, compact rs f = .ok g ∧
      (∀ b, g.body b = (f.body b).filter (fun z => !decide (∃ c ∈ find rs f, (f.insn c).vals[0]? = some (.insn z)))) ∧
      (∀ z, z ∉ find rs f → g.insn z = f.insn z) ∧
      (∀ c ∈ find rs f, ∃ p y, (f.insn c).vals[0]? = some (.insn p) ∧ (f.insn p).vals[0]? = some (.insn y) ∧
        (g.insn c).op = .assign ∧ (g.insn c).aluOp = .w32 ∧ (g.insn c).vals = [.insn y]) ∧
      Ok g ∧ Ssa g ∧ Ordered g ∧ EndsLast g ∧ g.allBbs = f.allBbs ∧ g.entry = f.entry ∧ g.succs = f.succs ∧
      ∀ W σ, Preserves W f g σ ∧ KeepsValues W f g σ := by
  rcases compactAll_ok (find rs f) f (find_nodup I) ⟨I.ok, I.ssa, I.ord, I.last⟩ (fun c hc => by
    obtain ⟨p, a, b, y, T, _⟩ := two_of_found I hw hc
    exact ⟨p, a, b, y, T⟩) with h | ⟨g, h, A, _⟩
  · exact .inl h
  · refine .inr ⟨g, h, A.body, A.insn, fun c hc => ?_, A.good.ok, A.good.ssa, A.good.ord, A.good.last, A.allBbs, A.entry, A.succs, A.keeps⟩
    obtain ⟨p, y, h1, h2, h3⟩ := A.insnC c hc
    exact ⟨p, y, h1, h2, by rw [h3], by rw [h3], by rw [h3]⟩

/-- C27, what is found: every instruction found is the right shift of a pair of shifts by 32. -/
theorem C27_found {rs : List Nat} {f : Fn} {c : Nat} (h : c ∈ find rs f) :
    (f.insn c).op = .rsh ∧ constOf ((f.insn c).vals[1]?) = some 32 ∧ ∃ p y, (f.insn c).vals[0]? = some (.insn p) ∧
      (f.insn p).op = .lsh ∧ (f.insn p).vals[0]? = some (.insn y) ∧ constOf ((f.insn p).vals[1]?) = some 32 := by
  obtain ⟨p, a, b, y, ha, hb, hpa, hcb, hop, hoc, hp0, hc0, hp1, hc1⟩ := (find_found c h).ex
  exact ⟨hoc, hc1, p, y, hc0, hop, hp0, hp1⟩

/-- C27, the value: whenever control is in front of the right shift, the shift and the 32-bit move of the original operand
give the same. -/
theorem C27_value {rs : List Nat} {f : Fn} (I : Input rs f) (hw : SameWidth rs f) {c p y : Nat} (hc : c ∈ find rs f)
    (h0 : (f.insn c).vals[0]? = some (.insn p)) (h1 : (f.insn p).vals[0]? = some (.insn y)) {W : World} {σ τ τ' : St} {n b : Nat}
    {r : List Nat} (hr : runFn W f n σ = .running b (c :: r) τ) (he : exec W c (f.insn c) τ = some τ') :
    τ' = τ.set c ((τ.env y).setWidth 32 |>.setWidth 64) := by
  obtain ⟨p', a, b', y', T, _⟩ := two_of_found I hw hc
  obtain ⟨_, _, hv⟩ := T.cv
  obtain ⟨_, _, hv'⟩ := T.pv
  rw [hv] at h0
  cases h0
  rw [hv'] at h1
  cases h1
  have := T.exec (T.comp.avail (W := W) σ hr (by rw [T.cop]; simp) (by rw [T.refsC, if_pos rfl]; omega)) he
  rw [T.insnC] at this
  dsimp only [exec] at this
  simp only [eval, Option.bind_eq_bind, Option.bind_some, if_true, Option.some.injEq] at this
  exact this.symm

/-! ## Examples -/

/-- `x = r1 << 32; y = x >> 32; ret y` -/
def pairFn (w1 w2 : AluTy) : Fn :=
  let f := createBb emptyFn (mkBin .lsh w1 (.insn 1) (const64 32)) 0 .back
  let f := createBb f (mkBin .rsh w2 (.insn 6) (const64 32)) 0 .back
  createBb f (mkRet (.insn 7)) 0 .back

theorem pairFn_body (w1 w2 : AluTy) (b : Nat) (hb : b ≠ 0) : (pairFn w1 w2).body b = [] := by
  unfold pairFn
  dsimp only
  rw [(added_createBb ..).body b hb, (added_createBb ..).body b hb, (added_createBb ..).body b hb]
  rfl

theorem pairFn_input : Input [0] (pairFn .w64 .w64) := by
  have hb : (pairFn .w64 .w64).body 0 = [6, 7, 8] := by decide
  have only : ∀ b, b ∉ (pairFn .w64 .w64).allBbs → (pairFn .w64 .w64).body b = [] := fun b hb =>
    pairFn_body _ _ b (by rintro rfl; exact hb (by decide))
  refine ⟨ok_of_check (by decide +kernel) only, ssa_of_check (dm := fun _ => []) (by decide +kernel) only, ?_, ?_, by simp,
    fun b hb => ?_, fun b hb => ?_⟩
  · intro b _ l z r e hp y hy
    by_cases h : b = 0
    · subst h
      rw [hb] at e
      match l, e with
      | [], e => simp only [List.nil_append, List.cons.injEq] at e; obtain ⟨rfl, rfl⟩ := e; revert y; decide
      | [_], e => simp only [List.cons_append, List.nil_append, List.cons.injEq] at e; obtain ⟨rfl, rfl, rfl⟩ := e; revert y; decide
      | [_, _], e => simp only [List.cons_append, List.nil_append, List.cons.injEq] at e; obtain ⟨rfl, rfl, rfl, rfl⟩ := e; revert y; decide
      | _ :: _ :: _ :: l, e => simp at e
    · rw [pairFn_body _ _ b h] at e; simp at e
  · intro b l z r e he
    by_cases h : b = 0
    · subst h
      rw [hb] at e
      match l, e with
      | [], e => simp only [List.nil_append, List.cons.injEq] at e; obtain ⟨rfl, rfl⟩ := e; revert he; decide
      | [_], e => simp only [List.cons_append, List.nil_append, List.cons.injEq] at e; obtain ⟨rfl, rfl, rfl⟩ := e; revert he; decide
      | [_, _], e => simp only [List.cons_append, List.nil_append, List.cons.injEq] at e; exact e.2.2.2.symm
      | _ :: _ :: _ :: l, e => simp at e
    · rw [pairFn_body _ _ b h] at e; simp at e
  · rw [List.mem_singleton] at hb; subst hb; exact ⟨[], .entry⟩
  · rw [List.mem_singleton] at hb; subst hb; decide

/-- The pair is found and rewritten. -/
example : Input [0] (pairFn .w64 .w64) ∧ SameWidth [0] (pairFn .w64 .w64) ∧ find [0] (pairFn .w64 .w64) = [7] ∧
    onOk (compact [0] (pairFn .w64 .w64)) (fun g => g.body 0 = [7, 8] ∧ (g.insn 7).op = .assign ∧ (g.insn 7).vals = [.insn 1] ∧
      g.users 1 = [7]) = true := by
  refine ⟨pairFn_input, ?_, by decide +kernel, by decide +kernel⟩
  have : find [0] (pairFn .w64 .w64) = [7] := by decide +kernel
  intro c hc p hp
  rw [this, List.mem_singleton] at hc
  subst hc
  have : ((pairFn .w64 .w64).insn 7).vals[0]? = some (.insn 6) := by decide
  rw [this] at hp
  cases hp
  decide

/-- The first argument is 2^33 + 5. -/
def argSt : St := { env := fun x => if x = 1 then 0x200000005 else 0, var := fun _ => 0, mem := fun _ => 0, trace := [] }

def retArg (f : Fn) (k : Nat) : Option (BitVec 64) :=
  match runFn Lift.exWI f k argSt with
  | .done x _ => some x
  | _ => none

example : retArg (pairFn .w64 .w64) 9 = some 5 ∧ onOk (compact [0] (pairFn .w64 .w64)) (fun g => retArg g 9 = some 5) = true := by
  decide +kernel

/-- C27 is violated: the widths of the shifts are not looked at.  A 64-bit left shift followed by a 32-bit right shift
gives 0, the move gives the low half. -/
theorem C27_violated_width : retArg (pairFn .w64 .w32) 9 = some 0 ∧
    onOk (compact [0] (pairFn .w64 .w32)) (fun g => retArg g 9 = some 5) = true := by decide +kernel

/-- `x = r1 << 32; y = x >> 32; z = x + y; ret z` -/
def sharedFn : Fn :=
  let f := createBb emptyFn (mkBin .lsh .w64 (.insn 1) (const64 32)) 0 .back
  let f := createBb f (mkBin .rsh .w64 (.insn 6) (const64 32)) 0 .back
  let f := createBb f (mkBin .add .w64 (.insn 6) (.insn 7)) 0 .back
  createBb f (mkRet (.insn 8)) 0 .back

/-- A left shift whose result is used elsewhere makes the pass fail. -/
theorem C27_shared_fails : (match compact [0] sharedFn with | .err => true | _ => false) = true ∧ retArg sharedFn 9 = some 0x500000005 := by
  decide +kernel

/-- C27 is violated in the generated code: for any two registers the move created by the pass becomes a 64-bit move, or
nothing, so the upper half stays. -/
theorem C27_violated_emitted (W : Bpf.World) (σ : Bpf.St) (d s : Norm.Reg) (t : VrTy) :
    ∃ ps, Norm.lower { op := .assign, v0 := .pos (Norm.inReg s), valueNum := 1, dst := Norm.inReg d, aluOp := .w32, vrType := t } = .ok ps ∧
      (Bpf.execLine W (Norm.slotsOf ps) σ).map (fun τ => τ.reg d) = some (σ.reg s) := by
  by_cases e : d = s
  · exact ⟨[], by simp [Norm.lower, Norm.normInsn, Norm.normAssign, Norm.vtypeAt, Norm.vtype, Norm.FVal.regOf, e], by subst e; rfl⟩
  · refine ⟨[Norm.regToReg d s], by
      simp [Norm.lower, Norm.normInsn, Norm.normAssign, Norm.vtypeAt, Norm.vtype, Norm.FVal.regOf, e, Norm.mapCat_cons, Norm.trInsn, Norm.trAssign], ?_⟩
    have := Norm.execP_regToReg W d s [] σ
    unfold Norm.execP at this
    rw [this]
    simp [Bpf.execLine, Bpf.St.set]

end Verif.Compact
