import Verif.Pipe.Ready
import Verif.Pipe.Props
import Verif.Phi.Props
import Verif.Dead.Props
import Verif.Ecall.Props
/-!
# The passes that run by default
-/
namespace Verif.Pipe
open Verif Verif.IR

variable {f g : Fn}

/-- Helper 6, whose number of arguments is not fixed, is not called. -/
def NoPrintk (f : Fn) : Prop := ∀ x, InBody f x → (f.insn x).op = .call → (f.insn x).aux ≠ 6

theorem Shrunk.noPrintk (h : Shrunk f g) (hf : NoPrintk f) : NoPrintk g := by
  intro x hx ho
  obtain ⟨φ, e, _⟩ := h.insn x (.inr (.inr hx))
  have ha : (g.insn x).aux = (f.insn x).aux := by rw [e]; rfl
  have hp : (g.insn x).op = (f.insn x).op := by rw [e]; rfl
  rw [ha]
  exact hf x (h.inBody hx) (by rw [← hp]; exact ho)

theorem Code.reach (h : Code f) {b : Nat} (hb : b ∈ f.allBbs) : Reach f b := by
  have key : ∀ c, Conn f c → c ∈ f.allBbs ∧ Reach f c := by
    intro c hc
    induction hc with
    | entry => exact ⟨h.entry, [], .entry⟩
    | @step a b _ hm ih =>
      obtain ⟨ha, l, hl⟩ := ih
      exact ⟨(h.graph.succs _ ha).2 _ hm, _, .step _ _ l hl ((h.route _ ha).edge hm)⟩
  exact (key b (h.conn b hb)).2

theorem Code.noEcall (h : Code f) {R : List Nat} (hl : LaidOut f R) (k : Nat) : Ecall.handleEcalls k R f = .ok f :=
  Ecall.C48_none fun b hb x hx ho => absurd ho (lifted_not (h.insn x ⟨b, (hl.mem b).1 hb, hx⟩).op).2.2.2.2.2.2

theorem Code.noThrow (h : Code f) {R : List Nat} (hl : LaidOut f R) : Throw.translateThrow R f = f := by
  unfold Throw.translateThrow
  have : (fun x => if x ∈ R.flatMap f.body ∧ (f.insn x).op = .throw then { f.insn x with op := .ret, vals := [Edit.const32 1] } else f.insn x) = f.insn := by
    funext x
    rw [if_neg]
    rintro ⟨hx, ho⟩
    obtain ⟨b, hb, hx⟩ := List.mem_flatMap.1 hx
    exact (lifted_not (h.insn x ⟨b, (hl.mem b).1 hb, hx⟩).op).2.2.2.2.1 ho
  rw [this]

theorem Code.noAlloc (h : Code f) {R : List Nat} (hR : ∀ b ∈ R, b ∈ f.allBbs) : Dead.removeUnusedAlloc R f = .ok f := by
  unfold Dead.removeUnusedAlloc
  have : Dead.allocs f R = [] := by
    unfold Dead.allocs
    rw [List.flatMap_eq_nil_iff]
    intro b hb
    rw [List.filter_eq_nil_iff]
    intro x hx
    simpa using (lifted_not (h.insn x ⟨b, hR b hb, hx⟩).op).1
  rw [this]
  rfl

theorem removeTrivial_code (h : Code f) {R : List Nat} (hl : LaidOut f R) : ∃ k g, (∀ k', k ≤ k' → Phi.removeTrivial R k' f = .ok g) ∧ Phi.Pruned R f g := by
  have hi : Phi.Inv R f := ⟨h.ok, h.ssa, fun b hb => ⟨(hl.mem b).1 hb, h.reach ((hl.mem b).1 hb)⟩⟩
  obtain ⟨g, h1, h2, _⟩ := Phi.removeTrivial_ok (Dead.total f R + 1) f hi (Nat.lt_succ_self _)
  exact ⟨_, g, fun k hk => Phi.removeTrivial_mono _ _ _ h1 k hk, h2⟩

theorem optimizeIr_code (h : Code f) {R : List Nat} (hl : LaidOut f R) : ∃ k g, (∀ k', k ≤ k' → optimizeIr k' R f = .ok g) ∧ Dead.Cut R f g := by
  obtain ⟨g, h1, h2, _⟩ := Dead.removeNoUser_ok (Dead.total f R + 1) f h.ok (fun b hb => (hl.mem b).1 hb) (Nat.lt_succ_self _)
  refine ⟨Dead.total f R + 1, g, fun k hk => ?_, h2⟩
  unfold optimizeIr
  rw [Dead.removeNoUser_mono _ _ _ h1 k hk, Out.ok_bind]
  exact (h.cut h2).noAlloc fun b hb => by rw [h2.allBbs]; exact (hl.mem b).1 hb

/-- The passes succeed (with enough fuel), and the function they hand on does the same. -/
theorem passes_code (h : Code f) (h6 : NoPrintk f) {R : List Nat} (hl : LaidOut f R) : ∃ k g R', (∀ fuel, k ≤ fuel → ∀ check, passes fuel check (f, R) = .ok (g, R')) ∧
    Code g ∧ LaidOut g R' ∧ NoPrintk g ∧ g.sp = f.sp ∧ g.args = f.args ∧ ∀ W σ, Preserves W f g σ := by
  obtain ⟨k1, m, e1, h1⟩ := removeTrivial_code h hl
  have hm := h.pruned h1
  obtain ⟨k2, R2, l2, _, e2⟩ := hm.post
  obtain ⟨k4, g, e4, h4⟩ := optimizeIr_code hm l2
  have hg := hm.cut h4
  obtain ⟨k5, R5, l5, _, e5⟩ := hg.post
  refine ⟨k1 + k2 + k4 + k5, g, R5, fun fuel hf check => ?_, hg, l5, (Shrunk.cut h4).noPrintk ((Shrunk.pruned h1).noPrintk h6), h4.sp.trans h1.sp, h4.args.trans h1.args, fun W σ => (h1.pres W σ).trans (h4.pres W σ)⟩
  have p1 : pass fuel check (fun R f => Phi.removeTrivial R fuel f) (f, R) = .ok (m, R2) := by
    unfold pass
    dsimp only
    rw [e1 fuel (by omega), Out.ok_bind]
    exact e2 fuel (by omega) check
  have p2 : pass fuel check (fun R f => Ecall.handleEcalls fuel R f) (m, R2) = .ok (m, R2) := by
    unfold pass
    dsimp only
    rw [hm.noEcall l2, Out.ok_bind]
    exact e2 fuel (by omega) check
  have p3 : pass fuel check (fun R f => .ok (Throw.translateThrow R f)) (m, R2) = .ok (m, R2) := by
    unfold pass
    dsimp only
    rw [hm.noThrow l2, Out.ok_bind]
    exact e2 fuel (by omega) check
  have p4 : pass fuel check (optimizeIr fuel) (m, R2) = .ok (g, R5) := by
    unfold pass
    dsimp only
    rw [e4 fuel (by omega), Out.ok_bind]
    exact e5 fuel (by omega) check
  unfold passes
  rw [p1, Out.ok_bind, p2, Out.ok_bind, p3, Out.ok_bind, p4]

/-- More fuel changes nothing. -/
theorem post_mono {fuel fuel' : Nat} {check : Bool} {s} (h : post fuel check f = .ok s) (hle : fuel ≤ fuel') : post fuel' check f = .ok s := by
  unfold post at h ⊢
  obtain ⟨g, e1, h⟩ := Out.bind_eq_ok.1 h
  rw [e1, Out.ok_bind]
  dsimp only at h ⊢
  obtain ⟨R, e2, h⟩ := Out.bind_eq_ok.1 h
  cases hl : Layout.layout (Flatten.graphOf (withSuccs f g)) fuel (withSuccs f g).entry with
  | none => rw [hl] at e2; cases e2
  | some r =>
    rw [hl] at e2
    rw [Layout.layout_mono hl hle]
    dsimp only at e2 ⊢
    rw [e2, Out.ok_bind]
    exact h

/-- If they succeed with less fuel, the result is the same. -/
theorem passes_less (h : Code f) {R : List Nat} (hl : LaidOut f R) {fuel fuel' : Nat} {check : Bool} {s} (e : passes fuel check (f, R) = .ok s) (hle : fuel ≤ fuel') : passes fuel' check (f, R) = .ok s := by
  unfold passes at e ⊢
  obtain ⟨⟨m, R2⟩, e1, e⟩ := Out.bind_eq_ok.1 e
  obtain ⟨⟨m3, R3⟩, e2, e⟩ := Out.bind_eq_ok.1 e
  obtain ⟨⟨m4, R4⟩, e3, e⟩ := Out.bind_eq_ok.1 e
  unfold pass at e1 e2 e3 e
  obtain ⟨m1, a1, e1⟩ := Out.bind_eq_ok.1 e1
  obtain ⟨m2, a2, e2⟩ := Out.bind_eq_ok.1 e2
  obtain ⟨m3', a3, e3⟩ := Out.bind_eq_ok.1 e3
  obtain ⟨m4', a4, e4⟩ := Out.bind_eq_ok.1 e
  dsimp only at a1 a2 a3 a4
  obtain ⟨k1, m', b1, c1⟩ := removeTrivial_code h hl
  have a1' := Phi.removeTrivial_mono _ _ _ a1 (fuel + k1) (by omega)
  rw [b1 _ (by omega)] at a1'
  cases a1'
  have hm := h.pruned c1
  obtain ⟨k2, R2', l2, _, b2⟩ := hm.post
  have e1' := post_mono e1 (show fuel ≤ fuel + k2 by omega)
  rw [b2 _ (by omega)] at e1'
  cases e1'
  have p1 : pass fuel' check (fun R f => Phi.removeTrivial R fuel' f) (f, R) = .ok (m, R2) := by
    unfold pass
    dsimp only
    rw [Phi.removeTrivial_mono _ _ _ a1 fuel' hle, Out.ok_bind]
    exact post_mono e1 hle
  rw [hm.noEcall l2] at a2
  cases a2
  rw [e1] at e2
  cases e2
  have p2 : pass fuel' check (fun R f => Ecall.handleEcalls fuel' R f) (m, R2) = .ok (m, R2) := by
    unfold pass
    dsimp only
    rw [hm.noEcall l2, Out.ok_bind]
    exact post_mono e1 hle
  rw [hm.noThrow l2] at a3
  cases a3
  rw [e1] at e3
  cases e3
  have p3 : pass fuel' check (fun R f => .ok (Throw.translateThrow R f)) (m, R2) = .ok (m, R2) := by
    unfold pass
    dsimp only
    rw [hm.noThrow l2, Out.ok_bind]
    exact post_mono e1 hle
  have p4 : pass fuel' check (optimizeIr fuel') (m, R2) = .ok s := by
    unfold pass
    dsimp only
    unfold optimizeIr at a4 ⊢
    obtain ⟨g, d1, d2⟩ := Out.bind_eq_ok.1 a4
    rw [Dead.removeNoUser_mono _ _ _ d1 fuel' hle, Out.ok_bind, d2, Out.ok_bind]
    exact post_mono e4 hle
  rw [p1, Out.ok_bind, p2, Out.ok_bind, p3, Out.ok_bind, p4]

end Verif.Pipe
