import Verif.Flatten.Model
import Verif.Spec.Flatten
import Verif.Ecall.Run
import Verif.Loc.Alloc
/-!
# Flattening: one instruction
-/
namespace Verif.Flatten
open Verif Verif.IR Verif.Loc
open Verif.Norm (VrPos FVal FInsn posType)

variable {f : Fn} {R : List Nat} {dst : Nat → Option Nat} {pos : Nat → VrPos} {p : BitVec 64} {M : Bpf.World} {W : World}

/-! ## The flattened program -/

/-- An operand. -/
def fv (pos : Nat → VrPos) : Val → FVal
  | .const k c t b => .const k c t b
  | .insn y => .pos (pos y)
  | .undef => .other

/-- The type. -/
def vt (f : Fn) (i : Insn) : VrTy :=
  match i.op, i.vals with
  | .load, .insn a :: _ => (f.insn a).vrType
  | .store, .insn a :: _ => (f.insn a).vrType
  | _, _ => i.vrType

/-- The flattened instruction. -/
def fi (f : Fn) (dst : Nat → Option Nat) (pos : Nat → VrPos) (x : Nat) : FInsn :=
  let i := f.insn x
  { op := i.op, v0 := (i.vals.map (fv pos))[0]?.getD .other, v1 := (i.vals.map (fv pos))[1]?.getD .other, valueNum := i.vals.length, vrType := vt f i,
    addr := if i.op = .loadraw ∨ i.op = .storeraw then fv pos i.addr else .other, addrOff := i.addrOff,
    aluOp := i.aluOp, bb1 := i.bb1, bb2 := i.bb2, aux := i.aux, immKind := i.immKind, imm64 := i.imm64, dst := resPos dst pos x }

theorem flatVal_ok {v : Val} (h : ∀ y, v = .insn y → dst y = some y) : flatVal dst pos v = .ok (fv pos v) := by
  cases v with
  | insn y => rw [flatVal, if_pos (h y rfl)]; rfl
  | _ => rfl

theorem flatVals_ok : ∀ {vs : List Val}, (∀ y, .insn y ∈ vs → dst y = some y) → flatVals dst pos vs = .ok (vs.map (fv pos))
  | [], _ => rfl
  | v :: vs, h => by
    rw [flatVals, flatVal_ok (fun y e => h y (by rw [← e]; exact List.mem_cons_self ..)), Out.ok_bind, flatVals_ok (fun y hy => h y (List.mem_cons_of_mem _ hy)),
      Out.ok_bind]
    rfl

theorem varType_ok {i : Insn} (h : i.op = .load ∨ i.op = .store → ∃ a r, i.vals = .insn a :: r ∧ (f.insn a).op = .alloc) : varType f i = .ok (vt f i) := by
  unfold varType
  split
  · next ho =>
    obtain ⟨a, r, e, ha⟩ := h ho
    unfold vt
    rw [e]
    rcases ho with ho | ho <;> simp only [ho, ha, if_true]
  · next ho =>
    unfold vt
    split
    · next h1 _ => exact absurd (.inl h1) ho
    · next h1 _ => exact absurd (.inr h1) ho
    · rfl

theorem flatInsn_ok (h : Placed f R dst pos) {b x : Nat} (hb : b ∈ R) (hx : x ∈ f.body b) : flatInsn f dst pos x = .ok (fi f dst pos x) := by
  have h1 : varType f (f.insn x) = .ok (vt f (f.insn x)) := varType_ok (fun ho => by
    obtain ⟨a, r, h1, h2, _⟩ := h.vars b hb x hx ho
    exact ⟨a, r, h1, h2⟩)
  have h2 : flatVals dst pos (f.insn x).vals = .ok ((f.insn x).vals.map (fv pos)) := flatVals_ok (fun y hy => (h.operand b hb x hx y (.inl hy)).1)
  have h3 : flatAddr dst pos (f.insn x) = .ok (if (f.insn x).op = .loadraw ∨ (f.insn x).op = .storeraw then fv pos (f.insn x).addr else .other) := by
    unfold flatAddr
    split
    · exact flatVal_ok (fun y e => (h.operand b hb x hx y (.inr e)).1)
    · rfl
  unfold flatInsn
  dsimp only
  rw [h1, Out.ok_bind, h2, Out.ok_bind, h3, Out.ok_bind]
  rfl

theorem flatInsns_ok (h : Placed f R dst pos) {b : Nat} (hb : b ∈ R) : ∀ {xs : List Nat}, (∀ x ∈ xs, x ∈ f.body b) →
    flatInsns f dst pos xs = .ok (xs.map (fi f dst pos))
  | [], _ => rfl
  | x :: xs, hx => by
    rw [flatInsns, flatInsn_ok h hb (hx x (List.mem_cons_self ..)), Out.ok_bind, flatInsns_ok h hb (fun y hy => hx y (List.mem_cons_of_mem _ hy)), Out.ok_bind]
    rfl

/-- The blocks. -/
def fb (f : Fn) (dst : Nat → Option Nat) (pos : Nat → VrPos) (b : Nat) : Flat.Block := ⟨b, (f.body b).map (fi f dst pos)⟩

theorem flatten_ok (h : Placed f R dst pos) : ∀ {bs : List Nat}, (∀ b ∈ bs, b ∈ R) → flatten f dst pos bs = .ok (bs.map (fb f dst pos))
  | [], _ => rfl
  | b :: bs, hb => by
    rw [flatten, flatInsns_ok h (hb b (List.mem_cons_self ..)) (fun _ hx => hx), Out.ok_bind, flatten_ok h (fun c hc => hb c (List.mem_cons_of_mem _ hc)), Out.ok_bind]
    rfl

theorem body_flat {b : Nat} : ∀ {bs : List Nat}, b ∈ bs → Flat.body (bs.map (fb f dst pos)) b = some ((f.body b).map (fi f dst pos))
  | c :: bs, hb => by
    unfold Flat.body
    rw [List.map_cons, List.find?_cons]
    by_cases hc : c = b
    · subst hc
      simp [fb]
    · have h1 : ((fb f dst pos c).id == b) = false := by simpa [fb] using hc
      rw [h1]
      exact body_flat (bs := bs) ((List.mem_cons.1 hb).resolve_left (fun e => hc e.symm))

/-! ## Operands -/

theorem placeOf_inj {q r : VrPos} (h : q.spilled ≠ 0) (h' : r.spilled ≠ 0) (e : placeOf q = placeOf r) : q.spilled = r.spilled := by
  unfold placeOf at e
  rw [if_neg h, if_neg h'] at e
  split at e <;> split at e <;> omega

theorem slot_eq (hm : Mirror f R pos p τ σ) (q : VrPos) : Flat.slotAddr σ q.spilled = slot p q := by
  unfold Flat.slotAddr slot
  rw [hm.sp]

theorem places_of {y : Nat} (h : (pos y).allocated = true) : places pos y = placeOf (pos y) := by
  unfold places
  rw [if_pos h]

theorem val_flat {τ : Loc.St} {σ : Bpf.St} (hm : Mirror f R pos p τ σ) {v : Val} {w : BitVec 64}
    (hv : ∀ y, v = .insn y → Names f R y ∧ (f.insn y).op ≠ .allocarray ∧ (pos y).allocated = true) (he : eval (view (places pos) τ) v = some w) :
    Flat.val σ (fv pos v) = some w := by
  cases v with
  | const k c t b => exact he
  | undef => cases he
  | insn y =>
    obtain ⟨hn, ho, ha⟩ := hv y rfl
    have e : w = τ.cell (placeOf (pos y)) := by
      rw [← places_of ha]
      exact (Option.some.inj he).symm
    by_cases hs : (pos y).spilled = 0
    · have ht : posType (pos y) = .reg := by simp [posType, ha, hs]
      have hp : placeOf (pos y) = (pos y).reg := by unfold placeOf; rw [if_pos hs]
      simp only [Flat.val, fv, ht]
      rw [e, hp, hm.regs _ (by have := (pos y).reg.isLt; omega)]
    · have ht : posType (pos y) = .stack := by simp [posType, ha, hs]
      simp only [Flat.val, fv, ht]
      rw [e, slot_eq hm, hm.slots y ⟨hn, ho, ha, hs⟩]

theorem addr_flat {τ : Loc.St} {σ : Bpf.St} (hm : Mirror f R pos p τ σ) {v : Val} {w : BitVec 64}
    (hv : ∀ y, v = .insn y → Names f R y ∧ (OnStack (pos y) → (f.insn y).op = .allocarray) ∧ (pos y).allocated = true)
    (hc : ∀ k c t u, v = .const k c t u → k = .plain) (he : eval (view (places pos) τ) v = some w) :
    Flat.addrVal σ (fv pos v) = some w := by
  cases v with
  | const k c t b =>
    have := hc _ _ _ _ rfl
    subst this
    exact he
  | undef => cases he
  | insn y =>
    obtain ⟨hn, ho, ha⟩ := hv y rfl
    have e : w = τ.cell (placeOf (pos y)) := by
      rw [← places_of ha]
      exact (Option.some.inj he).symm
    by_cases hs : (pos y).spilled = 0
    · have ht : posType (pos y) = .reg := by simp [posType, ha, hs]
      have hp : placeOf (pos y) = (pos y).reg := by unfold placeOf; rw [if_pos hs]
      simp only [Flat.addrVal, fv, ht]
      rw [e, hp, hm.regs _ (by have := (pos y).reg.isLt; omega)]
    · have ht : posType (pos y) = .stack := by simp [posType, ha, hs]
      simp only [Flat.addrVal, fv, ht]
      rw [e, slot_eq hm, hm.arrays y hn (ho ⟨ha, hs⟩)]

/-! ## Writing a place -/

theorem in_slot {a b : BitVec 64} {i : Nat} (h : i < 8) (e : a = b + BitVec.ofNat 64 i) : (a - b).toNat < 8 := by
  have : a - b = BitVec.ofNat 64 i := by rw [e, BitVec.add_comm, BitVec.add_sub_cancel]
  rw [this, BitVec.toNat_ofNat, Nat.mod_eq_of_lt (by omega)]
  exact h

theorem slots_disjoint {q r : VrPos} (hq : -2 ^ 31 ≤ q.spilled ∧ q.spilled < 2 ^ 31) (hr : -2 ^ 31 ≤ r.spilled ∧ r.spilled < 2 ^ 31)
    (h : q.spilled + 8 ≤ r.spilled ∨ r.spilled + 8 ≤ q.spilled) {i j : Nat} (hi : i < 8) (hj : j < 8) :
    slot p q + BitVec.ofNat 64 i ≠ slot p r + BitVec.ofNat 64 j := by
  unfold slot
  intro e
  rw [BitVec.add_assoc, BitVec.add_assoc] at e
  have e1 : BitVec.ofInt 64 q.spilled + BitVec.ofNat 64 i = BitVec.ofInt 64 r.spilled + BitVec.ofNat 64 j := by
    have := congrArg (fun z => z - p) e
    simpa [BitVec.add_comm p, BitVec.add_sub_cancel] using this
  have key : ∀ (o : Int) (k : Nat), -2 ^ 31 ≤ o → o < 2 ^ 31 → k < 8 → (BitVec.ofInt 64 o + BitVec.ofNat 64 k).toInt = o + k := by
    intro o k h1 h2 h3
    have : BitVec.ofNat 64 k = BitVec.ofInt 64 (k : Int) := (BitVec.ofInt_natCast 64 k).symm
    rw [this, ← BitVec.ofInt_add, BitVec.toInt_ofInt, Int.bmod_eq_of_le (by omega) (by omega)]
  have := congrArg BitVec.toInt e1
  rw [key _ _ hq.1 hq.2 hi, key _ _ hr.1 hr.2 hj] at this
  omega

theorem put_flat (h : Placed f R dst pos) {τ : Loc.St} {σ : Bpf.St} (hm : Mirror f R pos p τ σ) {x : Nat} (hn : Names f R x)
    (ho : (f.insn x).op ≠ .allocarray) (ha : (pos x).allocated = true) (h10 : (pos x).spilled = 0 → (pos x).reg ≠ 10) (v : BitVec 64) :
    ∃ σ', Flat.put σ (pos x) v = some σ' ∧ Mirror f R pos p (τ.set (places pos x) v) σ' := by
  rw [places_of ha]
  by_cases hs : (pos x).spilled = 0
  · have ht : posType (pos x) = .reg := by simp [posType, ha, hs]
    have hp : placeOf (pos x) = (pos x).reg := by unfold placeOf; rw [if_pos hs]
    have hr : ((pos x).reg : Nat) < 10 := by
      have h1 := (pos x).reg.isLt
      have h2 := h10 hs
      have h3 : ((pos x).reg : Nat) ≠ 10 := fun e => h2 (Fin.ext e)
      omega
    refine ⟨σ.set (pos x).reg v, by simp only [Flat.put, ht], ?_⟩
    have far : ∀ q, 10 < q → (τ.set (placeOf (pos x)) v).cell q = τ.cell q := fun q hq => by
      show (if q = placeOf (pos x) then v else τ.cell q) = _
      rw [if_neg (by omega)]
    refine ⟨?_, ?_, ?_, ?_, hm.mem, hm.trace⟩
    · show (if 10 = ((pos x).reg : Nat) then v else σ.reg 10) = p
      rw [if_neg (by omega)]
      exact hm.sp
    · intro r hr'
      show (if r = ((pos x).reg : Nat) then v else σ.reg r) = (if r = placeOf (pos x) then v else τ.cell r)
      rw [hp, hm.regs r hr']
    · intro y hy
      rw [far _ (placeOf_slot hy.2.2.2)]
      exact hm.slots y hy
    · intro y hy hyo
      rw [far _ (placeOf_slot (h.arrays y hy hyo).2)]
      exact hm.arrays y hy hyo
  · have ht : posType (pos x) = .stack := by simp [posType, ha, hs]
    have hS : Spilled f R pos x := ⟨hn, ho, ha, hs⟩
    have hfar := placeOf_slot hs
    refine ⟨{ σ with mem := Bpf.store 8 σ.mem (slot p (pos x)) v }, by simp only [Flat.put, ht, slot_eq hm], hm.sp, ?_, ?_, ?_, ?_, hm.trace⟩
    · intro r hr
      show σ.reg r = (if r = placeOf (pos x) then v else τ.cell r)
      rw [if_neg (by omega)]
      exact hm.regs r hr
    · intro y hy
      show Bpf.load 8 (Bpf.store 8 σ.mem (slot p (pos x)) v) (slot p (pos y)) = (if placeOf (pos y) = placeOf (pos x) then v else τ.cell (placeOf (pos y)))
      by_cases he : (pos y).spilled = (pos x).spilled
      · have e1 : slot p (pos y) = slot p (pos x) := by unfold slot; rw [he]
        have e2 : placeOf (pos y) = placeOf (pos x) := by unfold placeOf; rw [he, if_neg hs, if_neg hs]
        rw [e1, if_pos e2, Ecall.load_store]
      · rw [if_neg (fun e => he (placeOf_inj hy.2.2.2 hs e)), ← hm.slots y hy]
        refine Msan.load_congr 8 (fun i hi => Msan.store_out 8 (fun j hj => ?_))
        exact slots_disjoint (h.range y hy.1) (h.range x hn) ((h.apart y x hy hS).resolve_left he) hi hj
    · intro y hy hyo
      show (if placeOf (pos y) = placeOf (pos x) then v else τ.cell (placeOf (pos y))) = _
      rw [if_neg (fun e => h.clear x y hS hy hyo (placeOf_inj (h.arrays y hy hyo).2 hs e).symm)]
      exact hm.arrays y hy hyo
    · intro a hna
      show Bpf.store 8 σ.mem (slot p (pos x)) v a = τ.mem a
      rw [Msan.store_out 8 (fun i hi e => hna ⟨x, hS, in_slot hi e⟩)]
      exact hm.mem a hna

end Verif.Flatten
