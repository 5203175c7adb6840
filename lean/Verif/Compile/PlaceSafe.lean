import Verif.Compile.EmitSafe
import Verif.Compile.Place
/-!
# Removing phis and flattening do not crash
-/
set_option linter.unusedSimpArgs false
namespace Verif.Compile
open Verif Verif.IR Verif.Edit Verif.Cg
open Verif.Loc (phisOf_append phisOf_phi hasResult)
open Verif.RemPhi (sig removePhi)
open Verif.Stack (shift shiftInsn shiftVal)
open Verif.Norm (VrPos Reg Op FVal FInsn)
open Verif.Flatten (flatVal flatVals flatAddr varType resPos flatInsn flatInsns flatten)

variable {L : Bool × Bool} {s : Cg} {R : List Nat} {rg : Nat → Nat} {d d0 : BitVec 16} {off : Int} {pos : Nat → VrPos}

/-! ## Removing phis -/

theorem Holds.gone_ok (h : Holds s R rg d0 off) (hR : R.Nodup) (hs : Seated s R pos) {regs : Reg → Nat} (hr : RegsAre s rg regs) :
    ∃ t, removePhi regs (dst (shift d s.f)) R ⟨shift d s.f, pos⟩ = .ok t := by
  have hp := h.phiReady (d := d) hR hs hr
  have hn := RemPhi.phis_nodup hp.tidy hp.blocks.1 hp.blocks.2
  obtain ⟨t', e1, hi⟩ := RemPhi.inv_all hp (flow_shift d h.ready.flow) (R.flatMap (phisOf (shift d s.f))) (done := []) (s := ⟨shift d s.f, pos⟩) (RemPhi.inv_start hp)
    (fun x hx => List.mem_flatMap.1 hx) (by simpa using hn)
  refine ⟨t', ?_⟩
  unfold removePhi
  dsimp only
  rw [if_pos, e1]
  rw [List.all_eq_true]
  intro x hx
  obtain ⟨b, hb, hxb⟩ := List.mem_flatMap.1 hx
  have ho : ((shift d s.f).insn x).op = .phi := phisOf_phi hxb
  have hos : (s.f.insn x).op = .phi := by rw [← ho]; exact ((Stack.shift_op d s.f x).1).symm
  have hz : (pos x).spilled = 0 := by
    refine Classical.byContradiction fun e => ?_
    have := (hs.stack h e).2.2
    unfold ops at this
    rw [hos] at this
    rcases this with e | e <;> cases e
  unfold RemPhi.phiOk
  rw [dst_of_result, ho]
  simp [hz, hasResult, control]

/-! ## What has been made can be translated -/

theorem OkV.sig {regs : Reg → Nat} {done : List Nat} {v : Val} (h : OkV v) : OkV (sig regs pos done v) := by
  rcases h with ⟨y, rfl⟩ | ⟨k, c, rfl⟩
  · unfold RemPhi.sig
    dsimp only
    split <;> exact .inl ⟨_, rfl⟩
  · exact .inr ⟨k, c, rfl⟩

theorem OkV.shift {v : Val} (h : OkV v) : OkV (shiftVal d v) := by
  rcases h with ⟨y, rfl⟩ | ⟨k, c, rfl⟩
  · exact .inl ⟨y, rfl⟩
  · obtain ⟨k', c', e⟩ := (onlyConsts_shift d).same k c .w32 .none
    exact .inr ⟨k', c', e⟩

theorem Sturdy.shift {i : Insn} (h : Sturdy L i) : Sturdy L (shiftInsn d i) := by
  unfold shiftInsn
  split
  · split
    · exact ⟨h.op, h.ops, h.two, h.one, h.ret, h.typ, h.sto, h.imm, h.test⟩
    · exact ⟨h.op, h.ops, h.two, h.one, h.ret, h.typ, h.sto, h.imm, h.test⟩
    · exact h.map (fun _ => OkV.shift) fun y => ⟨y, rfl⟩
  · exact h.map (fun _ => OkV.shift) fun y => ⟨y, rfl⟩

theorem shiftInsn_fields (i : Insn) : (shiftInsn d i).vrType = i.vrType ∧ (shiftInsn d i).bb1 = i.bb1 ∧ (shiftInsn d i).bb2 = i.bb2 := by
  unfold shiftInsn
  split
  · split <;> exact ⟨rfl, rfl, rfl⟩
  · exact ⟨rfl, rfl, rfl⟩

theorem Gone.insn {regs : Reg → Nat} {t : Cg} (hg : Gone s R d pos regs t) (hsub : ∀ b ∈ R, b ∈ s.f.allBbs) {x : Nat} (hx : InR s.f R x) (hp : (s.f.insn x).op ≠ .phi) :
    t.f.insn x = mapOps (sig regs pos (R.flatMap (phisOf (Stack.shift d s.f)))) (shiftInsn d (s.f.insn x)) := by
  refine hg.inv.insn x (hx.inBody hsub) fun hm => hp ?_
  obtain ⟨b, -, hb⟩ := List.mem_flatMap.1 hm
  rw [(Stack.phisOf_shift d s.f b).1] at hb
  exact phisOf_phi hb

theorem Made.sturdy {regs : Reg → Nat} {t : Cg} (hg : Gone s R d pos regs t) (hsub : ∀ b ∈ R, b ∈ s.f.allBbs) (ht : ∀ x, InR s.f R x → Sturdy L (s.f.insn x)) {x : Nat}
    (hm : Made s R pos regs t x) : Sturdy L (t.f.insn x) := by
  cases hm with
  | old ψ h1 h2 h3 h4 h5 h6 h6' h7 h8 h9 =>
    rw [hg.insn hsub h1 h2]
    refine (ht x h1).shift.map (fun _ => OkV.sig) fun y => ?_
    unfold sig
    dsimp only
    split <;> exact ⟨_, rfl⟩
  | copy p v w h1 h2 h3 h4 h5 h6 h7 =>
    rw [h4]
    exact .assign (h7 ((ht p h1).ops v h5))

/-! ## Flattening -/

theorem flatVals_all {dst : Nat → Option Nat} {ps : Nat → VrPos} {vs : List Val} (h : ∀ v ∈ vs, ∃ w, flatVal dst ps v = .ok w) :
    ∃ ws, flatVals dst ps vs = .ok ws ∧ ∀ (n : Nat) (v : Val), vs[n]? = some v → ∃ w, ws[n]? = some w ∧ flatVal dst ps v = .ok w := by
  induction vs with
  | nil => exact ⟨[], rfl, fun n v hv => by simp at hv⟩
  | cons v vs ih =>
    obtain ⟨w, hw⟩ := h v (by simp)
    obtain ⟨ws, e, hws⟩ := ih fun u hu => h u (List.mem_cons_of_mem _ hu)
    refine ⟨w :: ws, by rw [flatVals, hw, Out.ok_bind, e, Out.ok_bind], fun n u hu => ?_⟩
    cases n with
    | zero => exact ⟨w, rfl, by rw [← hw]; congr 1; simpa using hu.symm⟩
    | succ n => exact hws n u (by simpa using hu)

theorem flatVals_length {dst : Nat → Option Nat} {ps : Nat → VrPos} {vs : List Val} {ws : List FVal} (h : flatVals dst ps vs = .ok ws) : ws.length = vs.length := by
  induction vs generalizing ws with
  | nil => cases h; rfl
  | cons v vs ih =>
    rw [flatVals] at h
    obtain ⟨w, -, h⟩ := Out.bind_eq_ok.1 h
    obtain ⟨us, h2, h⟩ := Out.bind_eq_ok.1 h
    cases h
    rw [List.length_cons, List.length_cons, ih h2]

theorem flatVal_reg {dst : Nat → Option Nat} {ps : Nat → VrPos} {v : Val} {w : FVal} (hv : OkV v) (hr : ∀ y, v = .insn y → ∃ r, ps y = inRegister r)
    (e : flatVal dst ps v = .ok w) : RegVal w := by
  rcases hv with ⟨y, rfl⟩ | ⟨k, c, rfl⟩
  · rw [flatVal] at e
    split at e
    · cases e
      obtain ⟨r, hr⟩ := hr y rfl
      exact .inl ⟨r, by rw [hr]⟩
    · cases e
  · cases e
    exact .inr ⟨k, c, _, rfl⟩

theorem flatVal_bare {dst : Nat → Option Nat} {ps : Nat → VrPos} {v : Val} {w : FVal} (hv : OkV v) (e : flatVal dst ps v = .ok w) : Emit.Bare w := by
  rcases hv with ⟨y, rfl⟩ | ⟨k, c, rfl⟩
  · rw [flatVal] at e
    split at e
    · cases e; exact .pos
    · cases e
  · cases e
    intro k c t b e; cases e; rfl

/-- What flattening relies on. -/
structure Flattable (L : Bool × Bool) (f : Fn) (dst : Nat → Option Nat) (ps : Nat → VrPos) (x : Nat) : Prop where
  sturdy : Sturdy L (f.insn x)
  phi : (f.insn x).op ≠ .phi
  val : ∀ y, .insn y ∈ (f.insn x).vals ∨ (f.insn x).addr = .insn y → dst y = some y ∧ (ps y).allocated = true
  reg : (f.insn x).op ≠ .load → (f.insn x).op ≠ .store → ∀ y, .insn y ∈ (f.insn x).vals ∨ raw (f.insn x).op = true ∧ (f.insn x).addr = .insn y → ∃ r, ps y = inRegister r
  var : (f.insn x).op = .load ∨ (f.insn x).op = .store →
    ∃ a r, (f.insn x).vals = .insn a :: r ∧ (f.insn a).op = .alloc ∧ (f.insn a).vrType ≠ .unknown ∧ ∀ y, .insn y ∈ r → ∃ r, ps y = inRegister r
  addr : raw (f.insn x).op = true → ∀ k c t u, (f.insn x).addr = .const k c t u → k = .plain
  res : hasResult (f.insn x).op = true → (f.insn x).op ≠ .alloc → dst x = some x ∧ ∃ r, ps x = inRegister r

theorem varType_ok {f : Fn} {dst : Nat → Option Nat} {ps : Nat → VrPos} {x : Nat} (h : Flattable L f dst ps x) :
    ∃ t, varType f (f.insn x) = .ok t ∧ ((f.insn x).op = .load → t ≠ .unknown) ∧ ((f.insn x).op = .loadraw ∨ (f.insn x).op = .storeraw → t = (f.insn x).vrType) := by
  unfold varType
  split
  · rename_i ho
    obtain ⟨a, r, h1, h2, h3, -⟩ := h.var ho
    rw [h1]
    dsimp only
    rw [if_pos h2]
    exact ⟨_, rfl, fun _ => h3, fun k => by rcases ho with e | e <;> rw [e] at k <;> rcases k with k | k <;> cases k⟩
  · rename_i ho
    exact ⟨_, rfl, fun k => absurd (.inl k) ho, fun _ => rfl⟩

theorem flatAddr_ok {f : Fn} {dst : Nat → Option Nat} {ps : Nat → VrPos} {x : Nat} (h : Flattable L f dst ps x) :
    ∃ a, flatAddr dst ps (f.insn x) = .ok a ∧ ((f.insn x).op = .loadraw ∨ (f.insn x).op = .storeraw → flatVal dst ps (f.insn x).addr = .ok a) := by
  unfold flatAddr
  split
  · rename_i ho
    have hraw : raw (f.insn x).op = true := by rcases ho with e | e <;> rw [e] <;> rfl
    rcases h.sturdy.ops _ (operand_addr hraw) with ⟨y, e⟩ | ⟨k, c, e⟩
    · rw [e, flatVal, if_pos (h.val y (.inr e)).1]
      exact ⟨_, rfl, fun _ => rfl⟩
    · rw [e]; exact ⟨_, rfl, fun _ => rfl⟩
  · rename_i ho
    exact ⟨_, rfl, fun k => absurd k ho⟩

/-- Loads have computed addresses, and jumps compare at least one computed value. -/
def Spared (L : Bool × Bool) (i : FInsn) : Prop :=
  (L.1 = true → i.op = .loadraw → ∃ p, i.addr = .pos p) ∧ (L.2 = true → i.op.condJmp = true → (∃ p, i.v0 = .pos p) ∨ ∃ p, i.v1 = .pos p)

theorem flatInsn_firm {f : Fn} {dst : Nat → Option Nat} {ps : Nat → VrPos} {x : Nat} (h : Flattable L f dst ps x) :
    ∃ fi, flatInsn f dst ps x = .ok fi ∧ Firm fi ∧ Spared L fi ∧ fi.op = (f.insn x).op ∧ fi.bb1 = (f.insn x).bb1 ∧ fi.bb2 = (f.insn x).bb2 := by
  have hok : ∀ v ∈ (f.insn x).vals, OkV v := fun v hv => h.sturdy.ops v (operand_val hv)
  obtain ⟨t, et, t1, t2⟩ := varType_ok h
  obtain ⟨a, ea, a1⟩ := flatAddr_ok h
  obtain ⟨ws, ew, w1⟩ := flatVals_all (dst := dst) (ps := ps) (vs := (f.insn x).vals) fun v hv => by
    rcases hok v hv with ⟨y, rfl⟩ | ⟨k, c, rfl⟩
    · exact ⟨_, by rw [flatVal, if_pos (h.val y (.inl hv)).1]⟩
    · exact ⟨_, rfl⟩
  refine ⟨_, by unfold flatInsn; dsimp only; rw [et, Out.ok_bind, ew, Out.ok_bind, ea, Out.ok_bind], ?_, ⟨fun hL o => ?_, fun hL o => ?_⟩, rfl, rfl, rfl⟩
  rotate_left
  · dsimp only at o ⊢
    obtain ⟨y, ey⟩ := h.sturdy.sto (.inr ⟨hL, o⟩)
    have e := a1 (.inl o)
    rw [ey, flatVal, if_pos (h.val y (.inr ey)).1] at e
    cases e
    exact ⟨_, rfl⟩
  · dsimp only at o ⊢
    obtain ⟨y, hy⟩ := h.sturdy.test hL o
    have hl := h.sturdy.two (.inr (.inl o))
    obtain ⟨k, hk⟩ := List.getElem?_of_mem hy
    have hk2 : k < 2 := by rw [← hl]; exact (List.getElem?_eq_some_iff.1 hk).1
    obtain ⟨w, e1, e2⟩ := w1 k _ hk
    rw [flatVal, if_pos (h.val y (.inl hy)).1] at e2
    cases e2
    match k, hk2, e1 with
    | 0, _, e1 => exact .inl ⟨_, by rw [e1]; rfl⟩
    | 1, _, e1 => exact .inr ⟨_, by rw [e1]; rfl⟩
  -- the operand at `n`
  have nth : ∀ (n : Nat) (v : Val), (f.insn x).vals[n]? = some v → ∃ w, ws[n]?.getD .other = w ∧ flatVal dst ps v = .ok w := fun n v hv => by
    obtain ⟨w, e1, e2⟩ := w1 n v hv
    exact ⟨w, by rw [e1]; rfl, e2⟩
  have regs : (f.insn x).op ≠ .load → (f.insn x).op ≠ .store → ∀ n, n < (f.insn x).vals.length → RegVal (ws[n]?.getD .other) := fun o1 o2 n hn => by
    obtain ⟨w, e1, e2⟩ := nth n _ (List.getElem?_eq_getElem hn)
    rw [e1]
    refine flatVal_reg (hok _ (List.getElem_mem hn)) (fun y hy => h.reg o1 o2 y (.inl ?_)) e2
    rw [← hy]
    exact List.getElem_mem hn
  have var : (f.insn x).op = .load ∨ (f.insn x).op = .store → ∃ p : VrPos, ws[0]?.getD .other = .pos p ∧ p.allocated = true := fun o => by
    obtain ⟨a, r, k1, k2, k3, k4⟩ := h.var o
    obtain ⟨w, e1, e2⟩ := nth 0 (.insn a) (by rw [k1]; rfl)
    have hv := h.val a (.inl (by rw [k1]; simp))
    rw [flatVal, if_pos hv.1] at e2
    cases e2
    exact ⟨_, e1, hv.2⟩
  have bare : ∀ n : Nat, Emit.Bare (ws[n]?.getD .other) := fun n => by
    by_cases hn : n < (f.insn x).vals.length
    · obtain ⟨w, e1, e2⟩ := nth n _ (List.getElem?_eq_getElem hn)
      rw [e1]
      exact flatVal_bare (hok _ (List.getElem_mem hn)) e2
    · rw [List.getElem?_eq_none (by rw [flatVals_length ew]; omega)]
      exact .other
  refine ⟨⟨h.sturdy.op, h.phi⟩, fun o => ?_, fun o => ?_, fun o => ?_, fun o => ?_, fun o => ?_, fun o => ?_, fun o => ?_, fun o => ?_, h.sturdy.imm, fun o1 o2 => ?_, ⟨bare 0, bare 1, ?_⟩⟩ <;> dsimp only at *
  · have n1 : (f.insn x).op ≠ .load := fun e => by rw [e] at o; rcases o with o | o <;> cases o
    have n2 : (f.insn x).op ≠ .store := fun e => by rw [e] at o; rcases o with o | o <;> cases o
    have hl := h.sturdy.two (o.elim .inl fun o => .inr (.inl o))
    exact ⟨hl, regs n1 n2 0 (by omega), regs n1 n2 1 (by omega)⟩
  · have n1 : (f.insn x).op ≠ .load := fun e => by rw [e] at o; rcases o with o | o | o | o | o <;> cases o
    have n2 : (f.insn x).op ≠ .store := fun e => by rw [e] at o; rcases o with o | o | o | o | o <;> cases o
    have hl := h.sturdy.one (by rcases o with o | o | o | o | o <;> simp [o])
    exact ⟨hl, regs n1 n2 0 (by omega)⟩
  · refine ⟨var (.inr o), ?_⟩
    obtain ⟨a, r, k1, k2, k3, k4⟩ := h.var (.inr o)
    have hl := h.sturdy.two (.inr (.inr o))
    rw [k1] at hl
    match r, hl with
    | [v], _ =>
      obtain ⟨w, e1, e2⟩ := nth 1 v (by rw [k1]; rfl)
      rw [e1]
      exact flatVal_reg (hok v (by rw [k1]; simp)) (fun y hy => k4 y (by simp [hy])) e2
  · exact ⟨h.sturdy.one (by simp [o]), t1 o, var (.inl o)⟩
  · have hl := h.sturdy.ret o
    by_cases e : (f.insn x).vals.length = 0
    · exact .inl e
    · exact .inr ⟨by omega, regs (by rw [o]; simp) (by rw [o]; simp) 0 (by omega)⟩
  · rw [t2 o]
    exact h.sturdy.typ (o.elim .inl fun o => .inr (.inl o))
  · have hraw : raw (f.insn x).op = true := by rw [o]; rfl
    have e := a1 (.inl o)
    rcases h.sturdy.ops _ (operand_addr hraw) with ⟨y, ey⟩ | ⟨k, c, ey⟩
    · obtain ⟨r, hr⟩ := h.reg (by rw [o]; simp) (by rw [o]; simp) y (.inr ⟨hraw, ey⟩)
      rw [ey, flatVal, if_pos (h.val y (.inr ey)).1, hr] at e
      cases e
      exact .inl ⟨r, rfl⟩
    · have := h.addr hraw _ _ _ _ ey
      subst this
      rw [ey] at e
      cases e
      exact .inr ⟨_, _, _, rfl⟩
  · have hraw : raw (f.insn x).op = true := by rw [o]; rfl
    have e := a1 (.inr o)
    obtain ⟨y, ey⟩ := h.sturdy.sto (.inl o)
    obtain ⟨r, hr⟩ := h.reg (by rw [o]; simp) (by rw [o]; simp) y (.inr ⟨hraw, ey⟩)
    rw [ey, flatVal, if_pos (h.val y (.inr ey)).1, hr] at e
    cases e
    exact ⟨r, rfl⟩
  · obtain ⟨k1, r, k2⟩ := h.res o1 o2
    exact ⟨r, by unfold resPos; rw [k1]; exact k2⟩
  · unfold flatAddr at ea
    split at ea
    · rename_i ho
      have hraw : raw (f.insn x).op = true := by rcases ho with e | e <;> rw [e] <;> rfl
      exact flatVal_bare (h.sturdy.ops _ (operand_addr hraw)) ea
    · cases ea; exact .other

theorem flatInsns_firm {f : Fn} {dst : Nat → Option Nat} {ps : Nat → VrPos} {xs : List Nat} (h : ∀ x ∈ xs, Flattable L f dst ps x) :
    ∃ is, flatInsns f dst ps xs = .ok is ∧ ∀ i ∈ is, (Firm i ∧ Spared L i) ∧ ∃ x ∈ xs, i.op = (f.insn x).op ∧ i.bb1 = (f.insn x).bb1 ∧ i.bb2 = (f.insn x).bb2 := by
  induction xs with
  | nil => exact ⟨[], rfl, fun i hi => by cases hi⟩
  | cons x xs ih =>
    obtain ⟨fi, e1, h1, h1', h2⟩ := flatInsn_firm (h x (by simp))
    obtain ⟨is, e2, h3⟩ := ih fun y hy => h y (List.mem_cons_of_mem _ hy)
    refine ⟨fi :: is, by rw [flatInsns, e1, Out.ok_bind, e2, Out.ok_bind], fun i hi => ?_⟩
    rcases List.mem_cons.1 hi with rfl | hi
    · exact ⟨⟨h1, h1'⟩, x, by simp, h2⟩
    · obtain ⟨k1, y, k2, k3⟩ := h3 i hi
      exact ⟨k1, y, List.mem_cons_of_mem _ k2, k3⟩

theorem flatten_firm {f : Fn} {dst : Nat → Option Nat} {ps : Nat → VrPos} {S : List Nat} (h : ∀ b ∈ S, ∀ x ∈ f.body b, Flattable L f dst ps x) :
    ∃ bs, flatten f dst ps S = .ok bs ∧ bs.map (·.id) = S ∧
      ∀ B ∈ bs, ∀ i ∈ B.insns, (Firm i ∧ Spared L i) ∧ ∃ b ∈ S, ∃ x ∈ f.body b, i.op = (f.insn x).op ∧ i.bb1 = (f.insn x).bb1 ∧ i.bb2 = (f.insn x).bb2 := by
  induction S with
  | nil => exact ⟨[], rfl, rfl, fun i hi => by cases hi⟩
  | cons b S ih =>
    obtain ⟨is, e1, h1⟩ := flatInsns_firm (h b (by simp))
    obtain ⟨bs, e2, e3, h2⟩ := ih fun c hc => h c (List.mem_cons_of_mem _ hc)
    refine ⟨⟨b, is⟩ :: bs, by rw [flatten, e1, Out.ok_bind, e2, Out.ok_bind], by rw [List.map_cons, e3], fun B hB i hi => ?_⟩
    rcases List.mem_cons.1 hB with rfl | hB
    · obtain ⟨k1, x, k2, k3⟩ := h1 i hi
      exact ⟨k1, b, by simp, x, k2, k3⟩
    · obtain ⟨k1, c, k2, k3⟩ := h2 B hB i hi
      exact ⟨k1, c, List.mem_cons_of_mem _ k2, k3⟩

/-! ## The function without phis can be flattened -/

/-- Operands other than variables are in registers. -/
theorem Holds.argReg (h : Holds s R rg d0 off) (hs : Seated s R pos) {regs : Reg → Nat} (hr : RegsAre s rg regs) {t : Cg} (hg : Gone s R d pos regs t)
    (ht : ∀ x, InR s.f R x → Sturdy L (s.f.insn x)) {x z : Nat} (hx : InR s.f R x) (hz : .insn z ∈ operands (s.f.insn x)) (hn : (s.f.insn z).op ≠ .alloc) :
    ∃ r, t.pos (ren s R pos regs z) = inRegister r := by
  have ha := h.arg hs hr hg hx hz
  have hsp : (t.pos (ren s R pos regs z)).spilled = 0 := by
    refine Classical.byContradiction fun e => ?_
    have er := ha.same (.inr (.inr e))
    rw [er, (ha.old er).2] at e
    rcases (hs.stack h e).2.2 with k | k
    · exact hn k
    · have := (ht z (ha.arr k)).op
      have k : (s.f.insn z).op = .allocarray := k
      rw [k] at this
      cases this
  have hal := ha.alloc
  revert hsp hal
  generalize t.pos (ren s R pos regs z) = p
  obtain ⟨a, r, sp⟩ := p
  intro e1 e2
  simp only at e1 e2
  subst e1; subst e2
  exact ⟨r, rfl⟩

theorem inRegister_of {p : VrPos} (h1 : p.allocated = true) (h2 : p.spilled = 0) : ∃ r, p = inRegister r := by
  obtain ⟨a, r, sp⟩ := p
  simp only at h1 h2
  subst h1; subst h2
  exact ⟨r, rfl⟩

theorem Holds.flattable (h : Holds s R rg d0 off) (hs : Seated s R pos) {regs : Reg → Nat} (hr : RegsAre s rg regs) {t : Cg} (hg : Gone s R d pos regs t)
    (ht : ∀ x, InR s.f R x → Sturdy L (s.f.insn x)) {b x : Nat} (hb : b ∈ R) (hx : x ∈ t.f.body b) : Flattable L t.f (dst t.f) t.pos x := by
  have hm := h.made hg hb hx
  have noArr : ∀ {y}, InR s.f R y → (s.f.insn y).op ≠ .allocarray := fun hy e => by
    have := (ht _ hy).op
    rw [e] at this
    cases this
  refine ⟨hm.sturdy hg h.ready.sub ht, ?_, fun y hy => ?_, fun o1 o2 y hy => ?_, fun o => ?_, fun o k c u bb e => ?_, fun o1 o2 => ?_⟩
  · cases hm with
    | old ψ h1 h2 h3 h4 h5 h6 h6' h7 h8 h9 => rw [h7]; exact h2
    | copy p v w h1 h2 h3 h4 h5 h6 => rw [h4]; simp [mkAssign]
  · obtain ⟨x0, z, h1, h2, rfl⟩ := hm.operands h hy
    have ha := h.arg hs hr hg h1 h2
    exact ⟨ha.dst, ha.alloc⟩
  · cases hm with
    | old ψ h1 h2 h3 h4 h5 h6 h6' h7 h8 h9 =>
      have : ∃ z, .insn z ∈ operands (s.f.insn x) ∧ y = ren s R pos regs z := by
        rcases hy with hy | ⟨hr, hy⟩
        · rw [h8] at hy
          obtain ⟨v, hv, e⟩ := List.mem_map.1 hy
          obtain ⟨z, rfl, hz⟩ := h5 v y e
          exact ⟨z, operand_val hv, hz⟩
        · rw [h7] at hr
          rw [h9, if_pos hr] at hy
          obtain ⟨z, e, hz⟩ := h5 _ y hy
          exact ⟨z, by rw [← e]; exact operand_addr hr, hz⟩
      obtain ⟨z, hz, rfl⟩ := this
      refine h.argReg hs hr hg ht h1 hz fun e => ?_
      rw [h7] at o1 o2
      rcases ((h.shape.insn x h1).var z hz e).1 with k | k
      · exact o1 k
      · exact o2 k
    | copy p v w h1 h2 h3 h4 h5 h6 =>
      have hy : w = .insn y := by
        rw [h4] at hy
        rcases hy with hy | ⟨hr, -⟩
        · exact (List.mem_singleton.1 hy).symm
        · cases hr
      obtain ⟨z, rfl, rfl⟩ := h6 y hy
      refine h.argReg hs hr hg ht h1 h5 fun e => ?_
      have := ((h.shape.insn p h1).var z h5 e).1
      rw [h2] at this
      rcases this with k | k <;> cases k
  · cases hm with
    | old ψ h1 h2 h3 h4 h5 h6 h6' h7 h8 h9 =>
      rw [h7] at o
      obtain ⟨a, r, k1, k2⟩ := h.ready.access x (h1.inBody h.ready.sub) o
      have hao : .insn a ∈ operands (s.f.insn x) := operand_val (by rw [k1]; exact List.mem_cons_self)
      have ha := h.arg hs hr hg h1 hao
      have e : ren s R pos regs a = a := by
        unfold ren
        rw [if_neg]
        intro hm
        obtain ⟨c, -, hc⟩ := List.mem_flatMap.1 hm
        rw [phisOf_phi hc] at k2
        cases k2
      have haR : InR s.f R a := by
        rcases h.shape.dom x h1 a hao with e | ⟨i, hi, e⟩ | ⟨k, -⟩
        · exact absurd e (ha.spN k2)
        · rw [e, h.fixed.2 i hi] at k2; cases k2
        · exact k
      refine ⟨a, r.map ψ, by rw [h8, k1, List.map_cons, h4, e], by rw [(ha.old e).1, k2], ?_, fun y hy => ?_⟩
      · rw [hg.insn h.ready.sub haR (by rw [k2]; simp)]
        show (shiftInsn d (s.f.insn a)).vrType ≠ _
        rw [(shiftInsn_fields _).1]
        exact (ht a haR).typ (.inr (.inr k2))
      · obtain ⟨v, hv, ev⟩ := List.mem_map.1 hy
        obtain ⟨z, rfl, rfl⟩ := h5 v y ev
        have hz : .insn z ∈ operands (s.f.insn x) := operand_val (by rw [k1]; exact List.mem_cons_of_mem _ hv)
        refine h.argReg hs hr hg ht h1 hz fun ez => ?_
        obtain ⟨-, r', e1, e2⟩ := (h.shape.insn x h1).var z hz ez
        rw [k1] at e1
        exact e2 (by rw [← (List.cons.inj e1).2]; exact hv)
    | copy p v w h1 h2 h3 h4 h5 h6 => rw [h4] at o; rcases o with e | e <;> cases e
  · cases hm with
    | old ψ h1 h2 h3 h4 h5 h6 h6' h7 h8 h9 =>
      rw [h7] at o
      rw [h9, if_pos o] at e
      obtain ⟨k', c', e'⟩ := h6 _ k c u bb e
      have := (h.shape.insn x h1).addr o k' c' u bb e'
      subst this
      rw [e', h6'] at e
      cases e
      rfl
    | copy p v w h1 h2 h3 h4 h5 h6 => rw [h4] at o; cases o
  · refine ⟨by rw [dst_of_result, if_pos o1], ?_⟩
    cases hm with
    | old ψ h1 h2 h3 h4 h5 h6 h6' h7 h8 h9 =>
      rw [h7] at o1 o2
      rw [h3]
      refine inRegister_of (hs.all x h1 o1) (Classical.byContradiction fun e => ?_)
      rcases (hs.stack h e).2.2 with k | k
      · exact o2 k
      · exact noArr h1 k
    | copy p v w h1 h2 h3 h4 h5 h6 =>
      rw [h3]
      refine inRegister_of (hs.all p h1 (by unfold ops; rw [h2]; rfl)) (Classical.byContradiction fun e => ?_)
      have := (hs.stack h e).2.2
      unfold ops at this
      rw [h2] at this
      rcases this with k | k <;> cases k

/-- The jumps of the function without phis go where they went. -/
theorem Holds.jumps (h : Holds s R rg d0 off) {regs : Reg → Nat} {t : Cg} (hg : Gone s R d pos regs t) {b x : Nat} (hb : b ∈ R) (hx : x ∈ t.f.body b) :
    ((t.f.insn x).op = .ja → (t.f.insn x).bb1 ∈ R) ∧ ((t.f.insn x).op.condJmp = true → (t.f.insn x).bb2 ∈ R) := by
  cases h.made hg hb hx with
  | old ψ h1 h2 h3 h4 h5 h6 h6' h7 h8 h9 =>
    rw [h7]
    have e := hg.insn h.ready.sub h1 h2
    have e1 : (t.f.insn x).bb1 = (s.f.insn x).bb1 := by rw [e]; exact (shiftInsn_fields _).2.1
    have e2 : (t.f.insn x).bb2 = (s.f.insn x).bb2 := by rw [e]; exact (shiftInsn_fields _).2.2
    rw [e1, e2]
    obtain ⟨c, hc, hxc⟩ := h1
    exact ⟨fun o => h.ready.flow.succs c hc _ (h.ready.flow.ja c hc x hxc o), fun o => h.ready.flow.succs c hc _ (h.ready.flow.cond c hc x hxc o).2⟩
  | copy p v w h1 h2 h3 h4 h5 h6 => rw [h4]; exact ⟨fun o => (by cases o), fun o => (by cases o)⟩

/-- Removing phis, flattening and emission. -/
theorem Holds.back_safe (h : Holds s R rg d0 off) (hR : R.Nodup) (hs : Seated s R pos) {regs : Reg → Nat} (hr : RegsAre s rg regs) (ht : ∀ x, InR s.f R x → Sturdy L (s.f.insn x)) :
    ∃ t bs, removePhi regs (dst (shift d s.f)) R ⟨shift d s.f, pos⟩ = .ok t ∧ flatten t.f (dst t.f) t.pos R = .ok bs ∧ Safe (Emit.emit bs) ∧
      ∀ b ∈ bs, ∀ i ∈ b.insns, Emit.BareI i ∧ Spared L i := by
  obtain ⟨t, e⟩ := h.gone_ok (d := d) hR hs hr
  have hg := h.gone hR hs hr e
  obtain ⟨bs, e1, e2, h1⟩ := flatten_firm (S := R) fun b hb x hx => h.flattable hs hr hg ht hb hx
  refine ⟨t, bs, e, e1, emit_safe (fun B hB i hi => (h1 B hB i hi).1.1) fun B hB i hi hj => ?_, fun B hB i hi => ⟨(h1 B hB i hi).1.1.bare, (h1 B hB i hi).1.2⟩⟩
  rw [e2]
  obtain ⟨-, b, hb, x, hx, k1, k2, k3⟩ := h1 B hB i hi
  have := h.jumps hg hb hx
  unfold Emit.jumpTarget
  split
  · rename_i o
    rw [k2]
    exact this.1 (by rw [← k1]; exact o)
  · rename_i o
    rw [k3]
    refine this.2 (by rw [← k1]; simpa [Emit.isJump, o] using hj)

end Verif.Compile
