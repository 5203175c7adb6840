import Verif.Cg.LowerInv
import Verif.Spec.Lower
import Verif.RemPhi.Sim
import Verif.IR.PhiSim
/-!
# Executions of a function with lowered calls and arguments
-/
namespace Verif.Cg
open Verif Verif.IR Verif.Edit Verif.Loc Verif.Lower
open Verif.Norm (VrPos Reg)

/-- The copies of the arguments, with their places. -/
def ArgsAt (g : Fn) (k rn : Nat → Nat) : Nat → List Val → List Nat → Prop
  | _, [], ns => ns = []
  | i, v :: vs, ns => ∃ n r, ns = n :: r ∧ g.insn n = mkAssign (renV rn v) ∧ k n = i + 1 ∧ ArgsAt g k rn (i + 1) vs r

/-- `g` is `f` with lowered calls and arguments. -/
structure Lowd (f : Fn) (R : List Nat) (g : Fn) (k rn rg : Nat → Nat) (H N M : Nat → List Nat) : Prop where
  entry : g.entry = f.entry
  succs : g.succs = f.succs
  body : ∀ b ∈ R, phisOf g b = phisOf f b ∧ codeOf g b = H b ++ ex N M (codeOf f b)
  plain : ∀ b ∈ R, ∀ x ∈ f.body b, (f.insn x).op ≠ .call → g.insn x = mapOps (renV rn) (f.insn x) ∧ N x = [] ∧ M x = [] ∧ rn x = x
  call : ∀ b ∈ R, ∀ x ∈ f.body b, (f.insn x).op = .call → g.insn x = { f.insn x with vals := [] } ∧ ArgsAt g k rn 0 (f.insn x).vals (N x) ∧
    ((M x = [] ∧ ∀ u, Live f u → refs (f.insn u) x = 0) ∨ (M x = [rn x] ∧ g.insn (rn x) = mkAssign (.insn (rg 0))))
  head : ∀ b, b ≠ f.entry → H b = []
  heads : ∀ n ∈ H f.entry, f.next ≤ n ∧ k n = virt n ∧ ∃ i, i < 5 ∧ g.insn n = mkAssign (.insn (rg (i + 1)))
  args : ∀ i a, f.args[i]? = some a → (∀ u, Live f u → refs (f.insn u) a = 0) ∨ (rn a ∈ H f.entry ∧ g.insn (rn a) = mkAssign (.insn (rg (i + 1))))
  regs : ∀ i, i < 10 → k (rg i) = i
  sp : rn f.sp = f.sp ∧ k f.sp = 10
  place : ∀ y, Live f y → y ≠ f.sp → k (rn y) = virt (rn y)
  own : ∀ y, InBody f y → k y = virt y
  var : ∀ a, Live f a → (f.insn a).op = .alloc → rn a = a
  inj : ∀ y z, Live f y → Live f z → rn y = rn z → y = z

theorem own_eq {f : Fn} {x : Nat} (h : void (f.insn x).op = false) : own f x = some x := by unfold own; rw [if_neg (by rw [h]; simp)]
theorem own_void {f : Fn} {x : Nat} (h : void (f.insn x).op = true) : own f x = none := by unfold own; rw [if_pos h]

/-- The needed values are where the new names say. -/
structure Rel (f : Fn) (k rn : Nat → Nat) (b : Nat) (rest : List Nat) (σ : IR.St) (τ : Loc.St) : Prop where
  env : ∀ y, Live f y → (f.insn y).op ≠ .alloc → IR.Needed f (own f) y b rest → τ.cell (k (rn y)) = σ.env y
  var : ∀ a, Live f a → (f.insn a).op = .alloc → τ.cell (virt a) = σ.var a
  mem : τ.mem = σ.mem
  trace : τ.trace = σ.trace

variable {f g : Fn} {R : List Nat} {k rn rg : Nat → Nat} {H N M : Nat → List Nat} {W : World}

theorem virt_inj {a b : Nat} (h : virt a = virt b) : a = b := by unfold virt at h; omega
theorem virt_big (a : Nat) : 12 < virt a := by unfold virt; omega

/-- The place of a value is the stack pointer's or a virtual register. -/
theorem Lowd.place_big (h : Lowd f R g k rn rg H N M) {y : Nat} (hy : Live f y) : 10 ≤ k (rn y) := by
  by_cases e : y = f.sp
  · rw [e, h.sp.1, h.sp.2]; exact Nat.le_refl _
  · rw [h.place y hy e]
    have := virt_big (rn y)
    omega

theorem Lowd.place_inj (h : Lowd f R g k rn rg H N M) {x y : Nat} (hx : Live f x) (hy : Live f y) (e : k (rn x) = k (rn y)) : x = y := by
  by_cases ex : x = f.sp <;> by_cases ey : y = f.sp
  · rw [ex, ey]
  · rw [ex, h.sp.1, h.sp.2, h.place y hy ey] at e
    have := virt_big (rn y)
    omega
  · rw [ey, h.sp.1, h.sp.2, h.place x hx ex] at e
    have := virt_big (rn x)
    omega
  · rw [h.place x hx ex, h.place y hy ey] at e
    exact h.inj x y hx hy (virt_inj e)

theorem step_g {g : Fn} {k : Nat → Nat} {b n : Nat} {r : List Nat} {v : Val} {τ : Loc.St} (h : g.insn n = mkAssign v) {y : BitVec 64}
    (hv : IR.eval (view k τ) v = some y) : Loc.step W g k b (n :: r) τ = .goto b r (τ.set (k n) y) := by
  rw [Loc.step_plain (by rw [h]; rfl), RemPhi.exec_assign (by rw [h]; rfl) (by rw [h]; simp [mkAssign]) (by rw [h]; rfl) hv]

/-- The arguments are copied to r1, r2, ... -/
theorem run_args (ht : Tidy f) (h : Lowd f R g k rn rg H N M) {b : Nat} {tail : List Nat} {σ : IR.St} :
    ∀ {vs : List Val} {i : Nat} {ns : List Nat}, ArgsAt g k rn i vs ns → i + vs.length ≤ 5 → ∀ {as : List (BitVec 64)}, evalAll σ vs = some as →
      ∀ (τ : Loc.St), (∀ y, .insn y ∈ vs → Live f y ∧ τ.cell (k (rn y)) = σ.env y) →
      ∃ τ', (∀ m, Loc.run W g k (ns.length + m) b (ns ++ tail) τ = Loc.run W g k m b tail τ') ∧ τ'.mem = τ.mem ∧ τ'.trace = τ.trace ∧
        (∀ q, q ≤ i ∨ i + vs.length < q → τ'.cell q = τ.cell q) ∧ (List.range' (i + 1) vs.length).map τ'.cell = as
  | [], i, ns, hn, _, as, he, τ, _ => by
    cases hn
    cases he
    exact ⟨τ, fun m => by simp, rfl, rfl, fun q _ => rfl, rfl⟩
  | v :: vs, i, ns, ⟨n, r, e, h1, h2, h3⟩, hl, as, he, τ, hτ => by
    subst e
    simp only [evalAll, Option.bind_eq_bind, Option.bind_eq_some_iff] at he
    obtain ⟨w, hw, ws, hws, hh⟩ := he
    cases hh
    simp only [List.length_cons] at hl
    have hv : IR.eval (view k τ) (renV rn v) = some w := by
      cases v with
      | insn y =>
        have := (hτ y (by simp)).2
        show some (τ.cell (k (rn y))) = some w
        rw [this]
        exact hw
      | const => exact hw
      | undef => cases hw
    obtain ⟨τ', e1, e2, e3, e4, e5⟩ := run_args ht h (σ := σ) (tail := tail) h3 (by omega) hws (τ.set (k n) w) (fun y hy => by
      have h6 := hτ y (List.mem_cons_of_mem _ hy)
      refine ⟨h6.1, ?_⟩
      have := h.place_big h6.1
      simp only [Loc.St.set]
      rw [if_neg (by omega)]
      exact h6.2)
    refine ⟨τ', fun m => ?_, e2, e3, fun q hq => ?_, ?_⟩
    · have : (n :: r).length + m = (r.length + m) + 1 := by simp; omega
      rw [this, List.cons_append, Loc.run, step_g h1 hv]
      exact e1 m
    · rw [e4 q (by simp only [List.length_cons] at hq; omega)]
      simp only [Loc.St.set]
      rw [if_neg (by simp only [List.length_cons] at hq; omega)]
    · rw [List.length_cons, List.range'_succ, List.map_cons, e5, e4 (i + 1) (by omega)]
      simp [Loc.St.set, h2]

theorem argRegs_eq {fid : BitVec 32} {n : Nat} (h1 : n = Lift.arity fid) (h2 : n ≤ 5) : argRegs fid = List.range' 1 n := by
  unfold argRegs
  rw [← h1]
  have : n = 0 ∨ n = 1 ∨ n = 2 ∨ n = 3 ∨ n = 4 ∨ n = 5 := by omega
  rcases this with h | h | h | h | h | h <;> subst h <;> rfl

theorem inBody_live {b x : Nat} (hr : Ready f R) (hb : b ∈ R) (hx : x ∈ f.body b) : Live f x := .inr (.inr ⟨b, hr.blocks b hb, hx⟩)

/-- Operands of an instruction that is not a load or store. -/
theorem rel_eval (hr : Ready f R) {b x : Nat} {rest : List Nat} (hb : b ∈ R) (hx : x ∈ f.body b) {σ : IR.St} {τ : Loc.St}
    (h : Rel f k rn b (x :: rest) σ τ) (hp : (f.insn x).op ≠ .phi) {v : Val} (hv : v ∈ operands (f.insn x))
    (hn : ∀ a, v = .insn a → (f.insn a).op ≠ .alloc) : IR.eval (view k τ) (renV rn v) = IR.eval σ v := by
  cases v with
  | const => rfl
  | undef => rfl
  | insn y =>
    show some (τ.cell (k (rn y))) = some (σ.env y)
    have hy : 0 < refs (f.insn x) y := refs_pos.2 hv
    rw [h.env y (hr.tidy.closed x y (inBody_live hr hb hx) hy) (hn y rfl) (.use hp hy)]

theorem not_alloc (hr : Ready f R) {b x : Nat} (hb : b ∈ R) (hx : x ∈ f.body b) (h1 : (f.insn x).op ≠ .load) (h2 : (f.insn x).op ≠ .store) {v : Val}
    (hv : v ∈ operands (f.insn x)) : ∀ a, v = .insn a → (f.insn a).op ≠ .alloc := by
  intro a e ha
  subst e
  rcases hr.vars b hb x hx a ha (refs_pos.2 hv) with h | ⟨h, _⟩
  · exact h1 h
  · exact h2 h

/-- A result is put at the place of the instruction. -/
theorem rel_set (hr : Ready f R) (h : Lowd f R g k rn rg H N M) {b x : Nat} {rest : List Nat} (hb : b ∈ R) (hx : x ∈ f.body b) {σ : IR.St} {τ : Loc.St}
    (hrel : Rel f k rn b (x :: rest) σ τ) (hv : void (f.insn x).op = false) (ha : (f.insn x).op ≠ .alloc) (hc : (f.insn x).op ≠ .call) (w : BitVec 64) :
    Rel f k rn b rest (σ.set x w) (τ.set (k x) w) := by
  have hxl := inBody_live hr hb hx
  have hrx := (h.plain b hb x hx hc).2.2.2
  have hkx : k x = virt x := h.own x ⟨b, hr.blocks b hb, hx⟩
  refine ⟨fun y hy hya hn => ?_, fun a hal haa => ?_, hrel.mem, hrel.trace⟩
  · by_cases e : y = x
    · subst e
      simp [Loc.St.set, IR.St.set, hrx]
    · have hne : k (rn y) ≠ k x := fun e2 => e (h.place_inj hy hxl (by rw [e2, hrx]))
      simp only [Loc.St.set, IR.St.set, if_neg hne, if_neg e]
      exact hrel.env y hy hya (.skip (by rw [own_eq hv]; exact fun e2 => e (Option.some.inj e2).symm) hn)
  · have hne : virt a ≠ k x := by
      rw [hkx]
      exact fun e => by have := virt_inj e; rw [this] at haa; exact ha haa
    simp only [Loc.St.set, IR.St.set, if_neg hne]
    exact hrel.var a hal haa

/-- The state does not change. -/
theorem rel_skip {b x : Nat} {rest : List Nat} {σ : IR.St} {τ : Loc.St} (hrel : Rel f k rn b (x :: rest) σ τ)
    (hv : void (f.insn x).op = true ∨ (f.insn x).op = .alloc) : Rel f k rn b rest σ τ := by
  refine ⟨fun y hy hya hn => hrel.env y hy hya (.skip (fun e => ?_) hn), hrel.var, hrel.mem, hrel.trace⟩
  rcases hv with hv | hv
  · rw [own_void hv] at e; cases e
  · unfold own at e
    split at e
    · cases e
    · cases e; exact hya hv

theorem needed_phis {y c : Nat} {rest : List Nat} : ∀ (ps : List Nat), (∀ p ∈ ps, own f p ≠ some y) → IR.Needed f (own f) y c rest → IR.Needed f (own f) y c (ps ++ rest)
  | [], _, h => h
  | p :: ps, hp, h => .skip (hp p List.mem_cons_self) (needed_phis ps (fun q hq => hp q (List.mem_cons_of_mem _ hq)) h)

theorem phis_body {b x : Nat} (h : x ∈ phisOf f b) : x ∈ f.body b := by
  rw [← phisOf_append f b]; exact List.mem_append_left _ h

/-- A block is entered. -/
theorem rel_enter (hr : Ready f R) (h : Lowd f R g k rn rg H N M) {b t : Nat} (hb : b ∈ R) (ht : t ∈ f.succs b) {σ : IR.St} {τ : Loc.St}
    (hrel : Rel f k rn b [] σ τ) {e : Nat → BitVec 64} (he : IR.phiAssign f b σ (phisOf f t) = some e) :
    ∃ τ', Loc.enter g k b t τ = .goto t (ex N M (codeOf f t)) τ' ∧ Rel f k rn t (codeOf f t) { σ with env := e } τ' := by
  have htR := hr.flow.succs b hb t ht
  have hte : t ≠ f.entry := fun e => hr.loop b hb (e ▸ ht)
  obtain ⟨hp, hc⟩ := h.body t htR
  rw [h.head t hte, List.nil_append] at hc
  have hphi : ∀ x ∈ phisOf f t, (f.insn x).op = .phi := fun x hx => phisOf_phi hx
  have hcall : ∀ x ∈ phisOf f t, (f.insn x).op ≠ .call := fun x hx => by rw [hphi x hx]; simp
  have hown : ∀ x ∈ phisOf f t, k x = virt x := fun x hx => h.own x ⟨t, hr.blocks t htR, phis_body hx⟩
  have hval : ∀ x ∈ phisOf f t, phiVal (g.insn x) b (view k τ) = phiVal (f.insn x) b σ := by
    intro x hx
    rw [(h.plain t htR x (phis_body hx) (hcall x hx)).1]
    refine phiVal_map (hphi x hx) (fun w hw => ?_)
    cases w with
    | const => rfl
    | undef => rfl
    | insn y =>
      have hm : (.insn y : Val) ∈ operands (f.insn x) := by
        unfold operands
        simp only [hphi x hx, if_true]
        exact List.mem_append_left _ (List.mem_append_right _ (List.mem_map.2 ⟨_, hw, rfl⟩))
      have hna := not_alloc hr htR (phis_body hx) (by rw [hphi x hx]; simp) (by rw [hphi x hx]; simp) hm y rfl
      show some (τ.cell (k (rn y))) = some (σ.env y)
      rw [hrel.env y (hr.tidy.closed x y (inBody_live hr htR (phis_body hx)) (refs_pos.2 hm)) hna (.phi ht (phis_body hx) (hphi x hx) hw)]
  have hsome : (Loc.phiAssign g k b τ (phisOf g t) τ.cell).isSome = true := by
    rw [Loc.phiAssign_isSome, hp]
    intro x hx
    rw [hval x hx, ((phiAssign_val he x).2 hx)]
    rfl
  obtain ⟨e', he'⟩ := Option.isSome_iff_exists.1 hsome
  refine ⟨{ τ with cell := e' }, ?_, ⟨?_, ?_, hrel.mem, hrel.trace⟩⟩
  · unfold Loc.enter
    rw [he', hc]
  · intro y hy hya hn
    show e' (k (rn y)) = e y
    by_cases hyp : y ∈ phisOf f t
    · have hry := (h.plain t htR y (phis_body hyp) (hcall y hyp)).2.2.2
      rw [hry]
      obtain ⟨xs, x, ys, es, hx, hys⟩ := last_split (fun x => k x = k y) (phisOf f t) ⟨y, hyp, rfl⟩
      have hxy : x = y := by
        rw [hown x (by rw [es]; simp), hown y hyp] at hx
        exact virt_inj hx
      subst hxy
      rw [hp, es] at he'
      have a1 := Loc.phiAssign_new he' hys
      rw [hval x hyp, (phiAssign_val he x).2 hyp] at a1
      exact (Option.some.inj a1).symm
    · rw [(phiAssign_val he y).1 hyp, Loc.phiAssign_old he' (k (rn y)) (fun x hx e2 => by
        rw [hp] at hx
        have hrx := (h.plain t htR x (phis_body hx) (hcall x hx)).2.2.2
        refine hyp ?_
        rw [h.place_inj hy (inBody_live hr htR (phis_body hx)) (by rw [hrx]; exact e2.symm)]
        exact hx)]
      refine hrel.env y hy hya (.jump ht ?_)
      rw [← phisOf_append f t]
      refine needed_phis _ (fun p hpp e2 => ?_) hn
      rw [own_eq (by rw [hphi p hpp]; rfl)] at e2
      exact hyp (Option.some.inj e2 ▸ hpp)
  · intro a hal ha
    show e' (virt a) = σ.var a
    rw [Loc.phiAssign_old he' (virt a) (fun x hx e2 => by
      rw [hp] at hx
      rw [hown x hx] at e2
      rw [← virt_inj e2, hphi x hx] at ha
      cases ha)]
    exact hrel.var a hal ha

theorem void_control {o : Op} (h : Loc.control o = true) (h2 : o ≠ .phi) : void o = true := by
  cases o <;> simp_all [Loc.control, void]

theorem plain_control {o : Op} (h : plain o = true) : Loc.control o = false := by
  cases o <;> simp_all [Loc.control, plain, straight]

/-- What an instruction with a result does. -/
theorem exec_set {x : Nat} {i : Insn} {σ σ' : IR.St} (h1 : i.op ≠ .alloc) (h2 : i.op ≠ .call) (h3 : i.op ≠ .store) (h4 : i.op ≠ .storeraw)
    (h : IR.exec W x i σ = some σ') : σ' = σ.set x (σ'.env x) := by
  obtain ⟨op, vals, phi, addr, addrOff, addrKind, aluOp, vrType, bb1, bb2, aux, immKind, imm64⟩ := i
  dsimp only at h1 h2 h3 h4
  rcases vals with _ | ⟨v0, _ | ⟨v1, _ | ⟨v2, r⟩⟩⟩ <;> cases op <;> first
    | exact absurd rfl h1
    | exact absurd rfl h2
    | exact absurd rfl h3
    | exact absurd rfl h4
    | (simp only [IR.exec, Option.bind_eq_bind, Option.bind_eq_some_iff, reduceCtorEq, Option.some.injEq] at h <;> first
        | (obtain ⟨_, _, _, _, _, _, _, _, h⟩ := h; subst h; simp [IR.St.set])
        | (obtain ⟨_, _, _, _, h⟩ := h; subst h; simp [IR.St.set])
        | (obtain ⟨_, _, h⟩ := h; subst h; simp [IR.St.set])
        | (subst h; simp [IR.St.set])
        | exact absurd h (by simp)
        | (cases v0 <;> simp only [reduceCtorEq, Option.some.injEq] at h; subst h; simp [IR.St.set]))

theorem alloc_place (hr : Ready f R) (h : Lowd f R g k rn rg H N M) {a : Nat} (hal : Live f a) (ha : (f.insn a).op = .alloc) : rn a = a ∧ k a = virt a := by
  refine ⟨h.var a hal ha, ?_⟩
  rcases hal with e | e | hab
  · exact absurd ha (hr.fixed a (.inl e))
  · exact absurd ha (hr.fixed a (.inr e))
  · exact h.own a hab

/-- A plain instruction other than a call. -/
theorem one_plain (hr : Ready f R) (h : Lowd f R g k rn rg H N M) {b x : Nat} {rest : List Nat} (hb : b ∈ R) (hx : x ∈ f.body b) {σ σ' : IR.St} {τ : Loc.St}
    (hrel : Rel f k rn b (x :: rest) σ τ) (hpl : plain (f.insn x).op = true) (hc : (f.insn x).op ≠ .call) (he : IR.exec W x (f.insn x) σ = some σ') :
    ∃ τ', Loc.exec W k x (g.insn x) τ = some τ' ∧ Rel f k rn b rest σ' τ' := by
  have hg := (h.plain b hb x hx hc).1
  have hxl := inBody_live hr hb hx
  have hctl := plain_control hpl
  have hnp : (f.insn x).op ≠ .phi := by intro e; rw [e] at hctl; cases hctl
  rw [hg]
  by_cases h1 : (f.insn x).op = .alloc
  · simp only [IR.exec, h1, Option.some.injEq] at he
    subst he
    exact ⟨τ, by simp [Loc.exec, mapOps_op, h1], rel_skip hrel (.inr h1)⟩
  by_cases h3 : (f.insn x).op = .store
  · simp only [IR.exec, h3] at he
    split at he
    · rename_i a v hvals
      simp only [Option.bind_eq_bind, Option.bind_eq_some_iff] at he
      obtain ⟨y, hy, he⟩ := he
      cases he
      have ha : (f.insn a).op = .alloc := hr.access b hb x hx (.inr h3) a (by rw [hvals]; rfl)
      have hal : Live f a := hr.tidy.closed x a hxl (refs_pos.2 (by unfold operands; simp [hvals]))
      obtain ⟨hra, hka⟩ := alloc_place hr h hal ha
      have hvn : ∀ c, v = .insn c → (f.insn c).op ≠ .alloc := by
        intro c e hca
        subst e
        rcases hr.vars b hb x hx c hca (refs_pos.2 (by unfold operands; simp [hvals])) with e | ⟨_, w, e, hne⟩
        · rw [h3] at e; cases e
        · rw [hvals] at e
          injection e with e1 e2
          injection e2 with e2 _
          have e2 : Val.insn c = w := e2
          exact hne e2.symm
      have hev := rel_eval hr hb hx hrel hnp (v := v) (by unfold operands; simp [hvals]) hvn
      refine ⟨τ.set (k a) y, ?_, ?_⟩
      · simp only [Loc.exec, mapOps_op, h3]
        simp only [mapOps, hvals, List.map_cons, List.map_nil]
        have e1 : renV rn (.insn a) = .insn a := by show Val.insn (rn a) = _; rw [hra]
        rw [e1]
        dsimp only
        rw [hev, hy]
        rfl
      · refine ⟨fun z hz hza hn => ?_, fun c hcl hca => ?_, hrel.mem, hrel.trace⟩
        · have hne : k (rn z) ≠ k a := fun e => hza (by rw [h.place_inj hz hal (by rw [e, hra])]; exact ha)
          simp only [Loc.St.set, if_neg hne]
          exact hrel.env z hz hza (.skip (by rw [own_void (by rw [h3]; rfl)]; simp) hn)
        · simp only [Loc.St.set]
          by_cases e : c = a
          · rw [if_pos e, if_pos (by rw [hka, e])]
          · rw [if_neg e, if_neg (by rw [hka]; exact fun e2 => e (virt_inj e2))]
            exact hrel.var c hcl hca
    · cases he
  by_cases h4 : (f.insn x).op = .storeraw
  · have hna := fun (v : Val) (hv : v ∈ operands (f.insn x)) => rel_eval hr hb hx hrel hnp hv (not_alloc hr hb hx (by rw [h4]; simp) h3 hv)
    have e := exec_mem (W := W) (x := x) (s := renV rn) (show (view k τ).mem = σ.mem from hrel.mem) (fun w hw => hna w (by unfold operands; simp [hw]))
      (hna _ (by unfold operands; simp [h4, raw])) h4
    rw [he] at e
    refine ⟨{ τ with mem := σ'.mem }, ?_, ?_⟩
    · rw [Loc.exec_raw (by rw [mapOps_op]; exact h4), e]
      rfl
    · have hσ : σ' = { σ with mem := σ'.mem } := by
        simp only [IR.exec, h4] at he
        split at he
        · simp only [Option.bind_eq_bind, Option.bind_eq_some_iff] at he
          obtain ⟨_, _, _, _, _, _, he⟩ := he
          cases he
          rfl
        · cases he
      rw [hσ]
      have := rel_skip hrel (.inl (by rw [h4]; rfl))
      exact ⟨this.env, this.var, rfl, this.trace⟩
  have hv : void (f.insn x).op = false := by
    revert hctl h3 h4
    cases (f.insn x).op <;> simp [Loc.control, void, Norm.Op.condJmp]
  have hσ := exec_set h1 hc h3 h4 he
  rw [Loc.exec_other (by rw [mapOps_op]; exact h1) (by rw [mapOps_op]; exact hc) (by rw [mapOps_op]; exact h3) (by rw [mapOps_op]; exact h4)]
  have e : (IR.exec W x (mapOps (renV rn) (f.insn x)) (view k τ)).map (·.env x) = (IR.exec W x (f.insn x) σ).map (·.env x) := by
    by_cases h5 : (f.insn x).op = .load
    · simp only [IR.exec, mapOps_op, h5] at he ⊢
      split at he
      · rename_i a hvals
        have ha : (f.insn a).op = .alloc := hr.access b hb x hx (.inl h5) a (by rw [hvals]; rfl)
        have hal : Live f a := hr.tidy.closed x a hxl (refs_pos.2 (by unfold operands; simp [hvals]))
        obtain ⟨hra, hka⟩ := alloc_place hr h hal ha
        simp only [mapOps, hvals, List.map_cons, List.map_nil]
        have e1 : renV rn (.insn a) = .insn a := by show Val.insn (rn a) = _; rw [hra]
        rw [e1]
        simp only [Option.map_some, IR.St.set, if_pos]
        show some (Flat.truncBytes (W.wid a) (τ.cell (k a))) = _
        rw [hka, hrel.var a hal ha]
      · cases he
    · have hna := fun (v : Val) (hv : v ∈ operands (f.insn x)) => rel_eval hr hb hx hrel hnp hv (not_alloc hr hb hx h5 h3 hv)
      exact exec_out (show (view k τ).mem = σ.mem from hrel.mem) (fun w hw => hna w (by unfold operands; simp [hw]))
        (fun e => hna _ (by unfold operands; simp [e, raw])) (fun e => absurd e h5) (fun e => absurd e h5) h1 hc h3 h4
  rw [e, he]
  refine ⟨τ.set (k x) (σ'.env x), rfl, ?_⟩
  rw [hσ]
  have := rel_set hr h hb hx hrel hv h1 hc (σ'.env x)
  simpa [IR.St.set] using this

theorem needed_ref (hr : Ready f R) {y b : Nat} {rest : List Nat} (h : IR.Needed f (own f) y b rest) : b ∈ R → (∀ x ∈ rest, x ∈ f.body b) →
    ∃ u, Live f u ∧ 0 < refs (f.insn u) y := by
  induction h with
  | use _ h => intro hb hs; exact ⟨_, inBody_live hr hb (hs _ List.mem_cons_self), h⟩
  | skip _ _ ih => intro hb hs; exact ih hb (fun x hx => hs x (List.mem_cons_of_mem _ hx))
  | phi h1 h2 h3 h4 =>
    intro hb _
    refine ⟨_, inBody_live hr (hr.flow.succs _ hb _ h1) h2, refs_pos.2 ?_⟩
    unfold operands
    simp only [h3, if_true]
    exact List.mem_append_left _ (List.mem_append_right _ (List.mem_map.2 ⟨_, h4, rfl⟩))
  | jump h1 _ ih => intro hb _; exact ih (hr.flow.succs _ hb _ h1) (fun x hx => hx)

/-- A call with its copies. -/
theorem one_call (hr : Ready f R) (h : Lowd f R g k rn rg H N M) {b x : Nat} {rest tail : List Nat} (hb : b ∈ R) (hx : x ∈ f.body b)
    (hrs : ∀ z ∈ rest, z ∈ f.body b) {σ σ' : IR.St} {τ : Loc.St}
    (hrel : Rel f k rn b (x :: rest) σ τ) (hc : (f.insn x).op = .call) (he : IR.exec W x (f.insn x) σ = some σ') :
    ∃ τ', (∀ m, Loc.run W g k ((N x).length + (M x).length + 1 + m) b (N x ++ x :: (M x ++ tail)) τ = Loc.run W g k m b tail τ') ∧ Rel f k rn b rest σ' τ' := by
  obtain ⟨hg, hN, hM⟩ := h.call b hb x hx hc
  obtain ⟨ha1, ha2⟩ := hr.arity b hb x hx hc
  have hxl := inBody_live hr hb hx
  simp only [IR.exec, hc, Option.bind_eq_bind, Option.bind_eq_some_iff] at he
  obtain ⟨as, has, he⟩ := he
  cases he
  have hop : ∀ y, Val.insn y ∈ (f.insn x).vals → Val.insn y ∈ operands (f.insn x) := fun y hy => by unfold operands; simp [hy]
  obtain ⟨τ1, r1, m1, t1, c1, a1⟩ := run_args (W := W) hr.tidy h (b := b) (tail := x :: (M x ++ tail)) hN (by omega) has τ (fun y hy => by
    have h1 : 0 < refs (f.insn x) y := refs_pos.2 (hop y hy)
    have hyl := hr.tidy.closed x y hxl h1
    exact ⟨hyl, hrel.env y hyl (not_alloc hr hb hx (by rw [hc]; simp) (by rw [hc]; simp) (hop y hy) y rfl) (.use (by rw [hc]; simp) h1)⟩)
  have hstep : Loc.step W g k b (x :: (M x ++ tail)) τ1 = .goto b (M x ++ tail) (doCall W.bpf (f.insn x).aux τ1) := by
    rw [Loc.step_plain (by rw [hg]; simp [hc, Loc.control, Norm.Op.condJmp])]
    simp only [Loc.exec, hg, hc]
  have hargs : (argRegs (f.insn x).aux).map τ1.cell = as := by
    rw [argRegs_eq ha1 ha2]
    exact a1
  generalize hτ2 : doCall W.bpf (f.insn x).aux τ1 = τ2 at hstep
  have h20 : τ2.cell 0 = (W.bpf.call σ.trace (f.insn x).aux as σ.mem).ret := by
    subst hτ2
    simp only [doCall, hargs, if_true, t1, m1, hrel.mem, hrel.trace]
  have h2q : ∀ q, 5 < q → τ2.cell q = τ.cell q := by
    intro q hq
    subst hτ2
    simp only [doCall]
    rw [if_neg (by omega), if_neg (by omega)]
    exact c1 q (.inr (by omega))
  have h2m : τ2.mem = (W.bpf.call σ.trace (f.insn x).aux as σ.mem).mem := by
    subst hτ2
    simp only [doCall, hargs, t1, m1, hrel.mem, hrel.trace]
  have h2t : τ2.trace = σ.trace ++ [⟨(f.insn x).aux, as⟩] := by
    subst hτ2
    simp only [doCall, hargs, t1, hrel.trace]
  have hrun : ∀ m, Loc.run W g k ((N x).length + (m + 1)) b (N x ++ x :: (M x ++ tail)) τ = Loc.run W g k m b (M x ++ tail) τ2 := by
    intro m
    rw [r1, Loc.run, hstep]
  have hold : ∀ y, Live f y → y ≠ x → (f.insn y).op ≠ .alloc → IR.Needed f (own f) y b rest → τ2.cell (k (rn y)) = σ.env y := by
    intro y hy hyx hya hn
    have := h.place_big hy
    rw [h2q _ (by omega)]
    exact hrel.env y hy hya (.skip (by rw [own_eq (by rw [hc]; rfl)]; exact fun e => hyx (Option.some.inj e).symm) hn)
  have hvar : ∀ a, Live f a → (f.insn a).op = .alloc → τ2.cell (virt a) = σ.var a := by
    intro a hal ha
    have := virt_big a
    rw [h2q _ (by omega)]
    exact hrel.var a hal ha
  rcases hM with ⟨hM, hz⟩ | ⟨hM, hrx⟩
  · refine ⟨τ2, fun m => ?_, ⟨fun y hy hya hn => ?_, hvar, h2m, h2t⟩⟩
    · have := hrun m
      rw [hM] at this ⊢
      simp only [List.length_nil, Nat.add_zero, List.nil_append] at this ⊢
      rw [← this]
      congr 1
      omega
    · have hyx : y ≠ x := by
        intro e
        subst e
        obtain ⟨u, h1, h2⟩ := needed_ref hr hn hb hrs
        exact absurd (hz u h1) (Nat.ne_of_gt h2)
      show τ2.cell (k (rn y)) = if y = x then _ else σ.env y
      rw [if_neg hyx]
      exact hold y hy hyx hya hn
  · have hs2 : Loc.step W g k b (rn x :: tail) τ2 = .goto b tail (τ2.set (k (rn x)) (τ2.cell 0)) :=
      step_g hrx (by show some (τ2.cell (k (rg 0))) = _; rw [h.regs 0 (by omega)])
    refine ⟨τ2.set (k (rn x)) (τ2.cell 0), fun m => ?_, ⟨fun y hy hya hn => ?_, fun a hal ha => ?_, h2m, h2t⟩⟩
    · have := hrun (m + 1)
      rw [hM] at this ⊢
      simp only [List.length_cons, List.length_nil, List.cons_append, List.nil_append] at this ⊢
      rw [Loc.run, hs2] at this
      dsimp only at this
      rw [← this]
      congr 1
      omega
    · show (if k (rn y) = k (rn x) then _ else _) = if y = x then _ else σ.env y
      by_cases hyx : y = x
      · rw [if_pos hyx, if_pos (by rw [hyx]), h20]
      · rw [if_neg hyx, if_neg (fun e => hyx (h.place_inj hy hxl e))]
        exact hold y hy hyx hya hn
    · show (if virt a = k (rn x) then _ else _) = σ.var a
      rw [if_neg (fun e => ?_)]
      · exact hvar a hal ha
      · obtain ⟨hra, hka⟩ := alloc_place hr h hal ha
        have := h.place_inj hal hxl (by rw [hra, hka]; exact e)
        subst this
        rw [hc] at ha
        cases ha

theorem step_done {y : BitVec 64} {b : Nat} {r : List Nat} {σ : IR.St} (h : IR.step W f b r σ = .done y) :
    ∃ x rest v, r = x :: rest ∧ (f.insn x).op = .ret ∧ (f.insn x).vals = [v] ∧ eval σ v = some y := by
  have he : ∀ t, IR.enter f b t σ ≠ .done y := by
    intro t e
    unfold IR.enter at e
    split at e <;> cases e
  cases r with
  | nil =>
    simp only [IR.step] at h
    split at h
    · exact absurd h (he _)
    · cases h
  | cons x rest =>
    simp only [IR.step] at h
    split at h
    · exact absurd h (he _)
    · split at h
      · split at h
        · exact absurd h (he _)
        · exact absurd h (he _)
        · cases h
      · split at h
        · rename_i hret
          split at h
          · rename_i v hv
            split at h
            · rename_i z hz
              cases h
              exact ⟨x, rest, v, rfl, hret, hv, hz⟩
            · cases h
          · cases h
        · split at h
          · cases h
          · split at h
            · cases h
            · split at h <;> cases h

theorem step_thrown {b : Nat} {r : List Nat} {σ : IR.St} (h : IR.step W f b r σ = .thrown) : ∃ x rest, r = x :: rest ∧ (f.insn x).op = .throw := by
  have he : ∀ t, IR.enter f b t σ ≠ .thrown := by
    intro t e
    unfold IR.enter at e
    split at e <;> cases e
  cases r with
  | nil =>
    simp only [IR.step] at h
    split at h
    · exact absurd h (he _)
    · cases h
  | cons x rest =>
    simp only [IR.step] at h
    split at h
    · exact absurd h (he _)
    · split at h
      · split at h
        · exact absurd h (he _)
        · exact absurd h (he _)
        · cases h
      · split at h
        · split at h
          · split at h <;> cases h
          · cases h
        · split at h
          · rename_i ht
            exact ⟨x, rest, rfl, ht⟩
          · split at h
            · cases h
            · split at h <;> cases h

theorem suffix_body {b : Nat} {x : Nat} {rest : List Nat} (h : x :: rest <:+ codeOf f b) : ∃ pre, f.body b = pre ++ x :: rest := by
  obtain ⟨pre, e⟩ := h
  exact ⟨phisOf f b ++ pre, by rw [← phisOf_append f b, ← e, List.append_assoc]⟩

theorem suffix_mem {b z : Nat} {rest : List Nat} (h : rest <:+ codeOf f b) (hz : z ∈ rest) : z ∈ f.body b := by
  rw [← phisOf_append f b]
  exact List.mem_append_right _ (h.mem hz)

/-- One step. -/
theorem one_goto (hr : Ready f R) (h : Lowd f R g k rn rg H N M) {b : Nat} {rest : List Nat} (hb : b ∈ R) (hs : rest <:+ codeOf f b) {σ σ' : IR.St} {τ : Loc.St}
    (hrel : Rel f k rn b rest σ τ) {c : Nat} {r : List Nat} (he : IR.step W f b rest σ = .goto c r σ') :
    ∃ j τ', c ∈ R ∧ r <:+ codeOf f c ∧ Rel f k rn c r σ' τ' ∧ ∀ m, Loc.run W g k (j + 1 + m) b (ex N M rest) τ = Loc.run W g k m c (ex N M r) τ' := by
  rcases IR.step_cases he with ⟨x, e1, e2, e3, e4⟩ | ⟨hw, e1, e, he1, e2⟩
  · subst e1 e2
    have hx := suffix_mem hs (List.mem_cons_self (a := x))
    have hs' : r <:+ codeOf f c := (List.suffix_cons x r).trans hs
    by_cases hc : (f.insn x).op = .call
    · obtain ⟨τ', h1, h2⟩ := one_call (tail := ex N M r) hr h hb hx (fun z hz => suffix_mem hs' hz) hrel hc e4
      refine ⟨(N x).length + (M x).length, τ', hb, hs', h2, fun m => ?_⟩
      rw [ex_cons, ← h1 m]
    · obtain ⟨τ', h1, h2⟩ := one_plain hr h hb hx hrel e3 hc e4
      obtain ⟨hg, hN, hM, _⟩ := h.plain c hb x hx hc
      refine ⟨0, τ', hb, hs', h2, fun m => ?_⟩
      have : 0 + 1 + m = m + 1 := by omega
      rw [ex_cons, hN, hM, this, Loc.run]
      simp only [List.nil_append]
      rw [Loc.step_plain (by rw [hg, mapOps_op]; exact plain_control e3), h1]
  · subst e1 e2
    have main : ∀ (x : Nat) (q : List Nat), rest = x :: q → Loc.control (f.insn x).op = true → (f.insn x).op ≠ .phi → c ∈ f.succs b →
        (Rel f k rn b [] σ τ → (∀ v ∈ (f.insn x).vals, eval (view k τ) (renV rn v) = eval σ v) → g.insn x = mapOps (renV rn) (f.insn x) →
          Loc.step W g k b (x :: ex N M q) τ = Loc.enter g k b c τ) →
        ∃ j τ', c ∈ R ∧ codeOf f c <:+ codeOf f c ∧ Rel f k rn c (codeOf f c) { σ with env := e } τ' ∧
          ∀ m, Loc.run W g k (j + 1 + m) b (ex N M rest) τ = Loc.run W g k m c (ex N M (codeOf f c)) τ' := by
      intro x q er hctl hnp hcs hst
      subst er
      have hx := suffix_mem hs (List.mem_cons_self (a := x))
      obtain ⟨pre, ep⟩ := suffix_body hs
      have hq := hr.flow.last b hb pre x q ep hctl hnp
      subst hq
      have hcall : (f.insn x).op ≠ .call := by intro e; rw [e] at hctl; simp [Loc.control, Norm.Op.condJmp] at hctl
      obtain ⟨hg, hN, hM, _⟩ := h.plain b hb x hx hcall
      have hrel0 := rel_skip hrel (.inl (void_control hctl hnp))
      obtain ⟨τ', h1, h2⟩ := rel_enter hr h hb hcs hrel0 he1
      refine ⟨0, τ', hr.flow.succs b hb c hcs, List.suffix_refl _, h2, fun m => ?_⟩
      have : 0 + 1 + m = m + 1 := by omega
      rw [ex_cons, hN, hM, this, Loc.run]
      simp only [List.nil_append]
      rw [hst hrel0 (fun v hv => ?_) hg, h1]
      have hop : v ∈ operands (f.insn x) := by unfold operands; simp [hv]
      exact rel_eval hr hb hx hrel hnp hop (not_alloc hr hb hx (by intro e; rw [e] at hctl; simp [Loc.control, Norm.Op.condJmp] at hctl)
        (by intro e; rw [e] at hctl; simp [Loc.control, Norm.Op.condJmp] at hctl) hop)
    cases hw with
    | fall ht =>
      obtain ⟨τ', h1, h2⟩ := rel_enter hr h hb (by rw [ht]; simp) hrel he1
      refine ⟨0, τ', hr.flow.succs b hb c (by rw [ht]; simp), List.suffix_refl _, h2, fun m => ?_⟩
      have : 0 + 1 + m = m + 1 := by omega
      rw [this, Loc.run]
      show (match Loc.step W g k b [] τ with | .goto b' rest' τ' => _ | .done x => _ | .thrown => _ | .stuck => _) = _
      simp only [Loc.step, h.succs, ht, h1]
    | @ja x q hj =>
      have hx := suffix_mem hs (List.mem_cons_self (a := x))
      refine main x q rfl (by rw [hj]; rfl) (by rw [hj]; simp) (hr.flow.ja b hb x hx hj) (fun _ _ hg => ?_)
      rw [Loc.step_ja (by rw [hg]; exact hj), hg]
      rfl
    | @no x q hj htk =>
      have hx := suffix_mem hs (List.mem_cons_self (a := x))
      refine main x q rfl (by simp [Loc.control, hj]) (by intro e; rw [e] at hj; simp [Norm.Op.condJmp] at hj) (hr.flow.cond b hb x hx hj).1 (fun _ hv hg => ?_)
      rw [Loc.step_cond (by rw [hg]; exact hj), hg, taken_out hv, htk]
      rfl
    | @yes x q hj htk =>
      have hx := suffix_mem hs (List.mem_cons_self (a := x))
      refine main x q rfl (by simp [Loc.control, hj]) (by intro e; rw [e] at hj; simp [Norm.Op.condJmp] at hj) (hr.flow.cond b hb x hx hj).2 (fun _ hv hg => ?_)
      rw [Loc.step_cond (by rw [hg]; exact hj), hg, taken_out hv, htk]
      rfl

/-- All steps. -/
theorem sim (hr : Ready f R) (h : Lowd f R g k rn rg H N M) : ∀ (n : Nat) {b : Nat} {rest : List Nat} {σ : IR.St} {τ : Loc.St}, b ∈ R → rest <:+ codeOf f b →
    Rel f k rn b rest σ τ → IR.run W f n b rest σ = .stuck ∨ ∃ m, n ≤ m ∧ Lower.SameOut (IR.run W f n b rest σ) (Loc.run W g k m b (ex N M rest) τ)
  | 0, b, rest, σ, τ, _, _, hrel => .inr ⟨0, Nat.le_refl _, .running _ _ _ _ _ _ hrel.mem hrel.trace⟩
  | n + 1, b, rest, σ, τ, hb, hs, hrel => by
    simp only [IR.run]
    cases hst : IR.step W f b rest σ with
    | stuck => exact .inl rfl
    | done y =>
      refine .inr ⟨n + 1, Nat.le_refl _, ?_⟩
      obtain ⟨x, q, v, er, h1, h2, h3⟩ := step_done hst
      subst er
      have hx := suffix_mem hs (List.mem_cons_self (a := x))
      obtain ⟨hg, hN, hM, _⟩ := h.plain b hb x hx (by rw [h1]; simp)
      have hop : v ∈ operands (f.insn x) := by unfold operands; simp [h2]
      have hev := rel_eval hr hb hx hrel (by rw [h1]; simp) hop (not_alloc hr hb hx (by rw [h1]; simp) (by rw [h1]; simp) hop)
      rw [ex_cons, hN, hM, Loc.run]
      simp only [List.nil_append]
      rw [Loc.step_ret (by rw [hg]; exact h1), hg]
      simp only [mapOps, h2, List.map_cons, List.map_nil, hev, h3]
      exact .done _ _ _ hrel.mem hrel.trace
    | thrown =>
      refine .inr ⟨n + 1, Nat.le_refl _, ?_⟩
      obtain ⟨x, q, er, h1⟩ := step_thrown hst
      subst er
      have hx := suffix_mem hs (List.mem_cons_self (a := x))
      obtain ⟨hg, hN, hM, _⟩ := h.plain b hb x hx (by rw [h1]; simp)
      rw [ex_cons, hN, hM, Loc.run]
      simp only [List.nil_append]
      rw [Loc.step_throw (by rw [hg]; exact h1)]
      exact .thrown _ _ hrel.mem hrel.trace
    | goto c r σ' =>
      obtain ⟨j, τ', h1, h2, h3, h4⟩ := one_goto hr h hb hs hrel hst
      rcases sim hr h n h1 h2 h3 with h5 | ⟨m, h5, h6⟩
      · exact .inl h5
      · refine .inr ⟨j + 1 + m, by omega, ?_⟩
        rw [h4 m]
        exact h6

/-- The copies of the arguments at the start of the function. -/
theorem run_heads (h : Lowd f R g k rn rg H N M) {b : Nat} {tail : List Nat} : ∀ (ns : List Nat) (τ : Loc.St), (∀ n ∈ ns, n ∈ H f.entry) →
    ∃ τ', (∀ m, Loc.run W g k (ns.length + m) b (ns ++ tail) τ = Loc.run W g k m b tail τ') ∧ τ'.mem = τ.mem ∧ τ'.trace = τ.trace ∧
      (∀ q, (∀ n ∈ ns, virt n ≠ q) → τ'.cell q = τ.cell q) ∧
      ∀ n ∈ ns, ∀ i, i < 5 → g.insn n = mkAssign (.insn (rg (i + 1))) → τ'.cell (virt n) = τ.cell (i + 1)
  | [], τ, _ => ⟨τ, fun m => by simp, rfl, rfl, fun _ _ => rfl, by simp⟩
  | n :: ns, τ, hn => by
    obtain ⟨-, h1, i0, hi0, h2⟩ := h.heads n (hn n List.mem_cons_self)
    obtain ⟨τ', e1, e2, e3, e4, e5⟩ := run_heads h (b := b) (tail := tail) ns (τ.set (k n) (τ.cell (i0 + 1))) (fun m hm => hn m (List.mem_cons_of_mem _ hm))
    have hsmall : ∀ i, i < 5 → (τ.set (k n) (τ.cell (i0 + 1))).cell (i + 1) = τ.cell (i + 1) := by
      intro i hi
      have := virt_big n
      simp only [Loc.St.set]
      rw [if_neg (by rw [h1]; omega)]
    refine ⟨τ', fun m => ?_, e2, e3, fun q hq => ?_, fun z hz i hi ez => ?_⟩
    · have : (n :: ns).length + m = (ns.length + m) + 1 := by simp; omega
      rw [this, List.cons_append, Loc.run, step_g h2 (by show some (τ.cell (k (rg (i0 + 1)))) = _; rw [h.regs _ (by omega)])]
      exact e1 m
    · rw [e4 q (fun z hz => hq z (List.mem_cons_of_mem _ hz))]
      simp only [Loc.St.set]
      rw [if_neg (by rw [h1]; exact (hq n List.mem_cons_self).symm)]
    · by_cases hm : z ∈ ns
      · rw [e5 z hm i hi ez, hsmall i hi]
      · rcases List.mem_cons.1 hz with rfl | hz
        · rw [e4 _ (fun y hy (e : virt y = virt z) => hm (by rw [← virt_inj e]; exact hy))]
          simp only [Loc.St.set]
          rw [if_pos h1.symm]
          have : i0 = i := by
            rw [h2] at ez
            have e : rg (i0 + 1) = rg (i + 1) := by
              simp only [mkAssign, Insn.mk.injEq, List.cons.injEq, Val.insn.injEq] at ez
              exact ez.2.1.1
            have e1 := h.regs (i0 + 1) (by omega)
            rw [e, h.regs (i + 1) (by omega)] at e1
            omega
          rw [this]
        · exact absurd hz hm

theorem lowd_keeps (hr : Ready f R) (h : Lowd f R g k rn rg H N M) {σ : IR.St} {τ : Loc.St} (hs : Starts f σ τ) : Lower.Keeps W f g k σ τ := by
  intro n
  have hbody : f.body f.entry = codeOf f f.entry := by
    rw [← phisOf_append f f.entry, hr.entry]; rfl
  obtain ⟨hp, hc⟩ := h.body f.entry hr.flow.entry
  have hgb : g.body g.entry = H f.entry ++ ex N M (codeOf f f.entry) := by
    rw [h.entry, ← phisOf_append g f.entry, hp, hr.entry, hc]; rfl
  obtain ⟨τ', e1, e2, e3, e4, e5⟩ := run_heads (W := W) h (b := f.entry) (tail := ex N M (codeOf f f.entry)) (H f.entry) τ (fun n hn => hn)
  have hlow : ∀ q, q ≤ 12 → τ'.cell q = τ.cell q := by
    intro q hq
    refine e4 q (fun n _ e => ?_)
    have := virt_big n
    omega
  have hrel : Rel f k rn f.entry (codeOf f f.entry) σ τ' := by
    refine ⟨fun y hy hya hn => ?_, fun a hal ha => ?_, e2.trans hs.mem, e3.trans hs.trace⟩
    · rcases hr.defined y (hbody ▸ hn) with rfl | ha | ha
      · rw [h.sp.1, h.sp.2, hlow 10 (by omega)]
        exact hs.sp
      · obtain ⟨i, hi, ei⟩ := List.getElem_of_mem ha
        have ei : f.args[i]? = some y := by rw [List.getElem?_eq_getElem hi, ei]
        have h5 := hr.five
        rcases h.args i y ei with hz | ⟨h1, h2⟩
        · obtain ⟨u, h3, h4⟩ := needed_ref hr hn hr.flow.entry (fun x hx => by rw [hbody]; exact hx)
          exact absurd (hz u h3) (Nat.ne_of_gt h4)
        · rw [(h.heads _ h1).2.1, e5 _ h1 i (by omega) h2]
          exact hs.args i y ei
      · exact absurd ha hya
    · rw [e4 _ (fun n hn e => ?_)]
      · exact hs.vars a ha
      · have := (h.heads n hn).1
        have := hr.tidy.lt a hal
        have := virt_inj e
        omega
  unfold IR.runFn Loc.runFn
  rw [hgb, hbody, h.entry]
  rcases sim (W := W) hr h n hr.flow.entry (List.suffix_refl _) hrel with h1 | ⟨m, h1, h2⟩
  · exact .inl h1
  · refine .inr ⟨(H f.entry).length + m, by omega, ?_⟩
    rw [e1]
    exact h2

end Verif.Cg
