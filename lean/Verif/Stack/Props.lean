import Verif.Stack.Model
import Verif.IR.Sim
import Verif.Edit.Props
/-!
# C38: stack slots
-/
namespace Verif.Stack
open Verif Verif.IR

/-! ## Slots -/

/-- Bytes a request needs. -/
def need : Req → Nat
  | .arr num ty => num.toNat * ((Flat.bytes ty).getD 0)
  | .val => 8

/-- The same rounded up to a multiple of 8. -/
def needed (r : Req) : Nat := (need r + 7) / 8 * 8

def total (rs : List Req) : Nat := (rs.map needed).sum

/-- The bytes of the slot of a request: offsets from r10. -/
def Has (s : Slot) (r : Req) (o : Int) : Prop := s.at_.toInt ≤ o ∧ o < s.at_.toInt + need r

theorem round8 (x : BitVec 32) (h : x.toNat + 7 < 2 ^ 32) : ((x + 7) &&& ~~~7 : BitVec 32).toNat = (x.toNat + 7) / 8 * 8 := by
  have e : (x + 7) &&& ~~~7#32 = ((x + 7) >>> 3) <<< 3 := by
    apply BitVec.eq_of_getLsbD_eq
    intro i hi
    simp only [BitVec.getLsbD_and, BitVec.getLsbD_not, BitVec.getLsbD_shiftLeft, BitVec.getLsbD_ushiftRight]
    have h7 : (7#32).getLsbD i = decide (i < 3) := by
      rcases i with _ | _ | _ | i
      · rfl
      · rfl
      · rfl
      · have : (7 : Nat).testBit (i + 3) = false :=
          Nat.testBit_lt_two_pow (Nat.lt_of_lt_of_le (by decide : 7 < 2 ^ 3) (Nat.pow_le_pow_right (by decide) (by omega)))
        rw [BitVec.getLsbD_ofNat]
        simp [this]
    rw [h7]
    by_cases h3 : i < 3
    · simp [h3]
    · have : 3 + (i - 3) = i := by omega
      simp [h3, hi, this]
  have e' : ((x + 7) &&& ~~~7 : BitVec 32) = ((x + 7) >>> 3) <<< 3 := e
  rw [e', BitVec.toNat_shiftLeft, BitVec.toNat_ushiftRight, BitVec.toNat_add]
  have : (x.toNat + (7 : BitVec 32).toNat) % 2 ^ 32 = x.toNat + 7 := Nat.mod_eq_of_lt h
  rw [this, Nat.shiftRight_eq_div_pow, Nat.shiftLeft_eq]
  exact Nat.mod_eq_of_lt (by omega)

theorem place_ok {off off' : BitVec 32} {r : Req} {s : Slot} (h : place off r = .ok (off', s))
    (hs : needed r ≤ 32768) (h0 : off.toInt ≤ 0) (h1 : -32768 + needed r ≤ off.toInt) :
    off'.toInt = off.toInt - needed r ∧ s.at_ = off' ∧ 0 < need r := by
  have key : ∀ n : BitVec 32, n.toNat = needed r → (off - n).toInt = off.toInt - needed r := by
    intro n hn
    rw [BitVec.toInt_sub]
    have : n.toInt = n.toNat := by rw [BitVec.toInt_eq_toNat_of_lt]; omega
    rw [this, hn]
    apply Int.bmod_eq_of_le <;> omega
  cases r with
  | val =>
    simp only [place, spillVal, newSpill] at h
    cases h
    exact ⟨key 8 rfl, rfl, by decide⟩
  | arr num ty =>
    simp only [place, spillArr] at h
    obtain ⟨n, hn, h⟩ := Out.bind_eq_ok.1 h
    have hb : need (.arr num ty) = num.toNat * n.toNat := by
      cases ty <;> simp only [sizeOf] at hn <;> cases hn <;> rfl
    have hlt : num.toNat * n.toNat ≤ 32768 := by
      simp only [needed, hb] at hs; omega
    have hm : (num * n).toNat = num.toNat * n.toNat := by
      rw [BitVec.toNat_mul]; exact Nat.mod_eq_of_lt (by omega)
    by_cases hz : num * n = 0
    · rw [if_pos hz] at h; cases h
    · rw [if_neg hz] at h
      cases h
      refine ⟨key _ ?_, rfl, ?_⟩
      · rw [round8 _ (by omega), hm]; simp only [needed, hb]
      · rw [hb, ← hm]
        rcases Nat.eq_zero_or_pos (num * n).toNat with h | h
        · exact absurd (BitVec.eq_of_toNat_eq (by simpa using h)) hz
        · exact h

theorem need_le (r : Req) : need r ≤ needed r := by unfold needed; omega

theorem layout_ok : ∀ (rs : List Req) {off off' : BitVec 32} {ss : List Slot}, layout off rs = .ok (off', ss) →
    off.toInt ≤ 0 → -32768 + total rs ≤ off.toInt →
    off'.toInt = off.toInt - total rs ∧ ss.length = rs.length ∧
    (∀ i (_ : i < ss.length) (_ : i < rs.length), off'.toInt ≤ ss[i].at_.toInt ∧ ss[i].at_.toInt + need rs[i] ≤ off.toInt) ∧
    (∀ i j (_ : i < ss.length) (_ : j < ss.length) (_ : i < rs.length) (_ : j < rs.length), i < j →
      ss[j].at_.toInt + need rs[j] ≤ ss[i].at_.toInt)
  | [], off, off', ss, h, _, _ => by
    cases h
    refine ⟨by simp [total], rfl, fun i h => absurd h (by simp), fun i j h => absurd h (by simp)⟩
  | r :: rs, off, off', ss, h, h0, h1 => by
    simp only [layout] at h
    obtain ⟨⟨o1, s⟩, ha, h⟩ := Out.bind_eq_ok.1 h
    obtain ⟨⟨o2, ss'⟩, hb, h⟩ := Out.bind_eq_ok.1 h
    cases h
    dsimp only at *
    have ht : total (r :: rs) = needed r + total rs := by simp [total]
    rw [ht] at h1 ⊢
    obtain ⟨a1, a2, a3⟩ := place_ok ha (by omega) h0 (by omega)
    obtain ⟨b1, b2, b3, b4⟩ := layout_ok rs hb (by omega) (by omega)
    have hle := need_le r
    refine ⟨by omega, by simp [b2], ?_, ?_⟩
    · intro i hi hi'
      cases i with
      | zero => simp only [List.getElem_cons_zero]; rw [a2]; omega
      | succ i =>
        have := b3 i (by simpa using hi) (by simpa using hi')
        simp only [List.getElem_cons_succ]; omega
    · intro i j hi hj hi' hj' hij
      cases j with
      | zero => omega
      | succ j =>
        have hj1 := b3 j (by simpa using hj) (by simpa using hj')
        cases i with
        | zero => simp only [List.getElem_cons_zero, List.getElem_cons_succ]; rw [a2]; omega
        | succ i =>
          simp only [List.getElem_cons_succ]
          exact b4 i j (by simpa using hi) (by simpa using hj) (by simpa using hi') (by simpa using hj') (by omega)

/-- The place of the byte that the original program has at `o` from the stack pointer, after `add_stack_offset` was
called with the final `stack_offset` (an `s32` passed as `s16`). -/
def ownPlace (off : BitVec 32) (o : Int) : Int := o + (off.setWidth 16).toInt

/-- Any number and sizes of arrays and spilled values, at most 32768 bytes altogether (the offset is an `s16`): the
slots have the size asked for, no two overlap, all are below r10, and the stack bytes of the program itself are
moved below all of them. -/
theorem C38_slots_partial (rs : List Req) (off : BitVec 32) (ss : List Slot) (h : layout 0 rs = .ok (off, ss))
    (hsmall : total rs ≤ 32768) :
    ss.length = rs.length ∧
    (∀ i (_ : i < ss.length) (_ : i < rs.length) o, Has ss[i] rs[i] o → o < 0 ∧ ∀ p < 0, ownPlace off p ≠ o) ∧
    (∀ i j (_ : i < ss.length) (_ : j < ss.length) (_ : i < rs.length) (_ : j < rs.length) o,
      Has ss[i] rs[i] o → Has ss[j] rs[j] o → i = j) := by
  obtain ⟨h1, h2, h3, h4⟩ := layout_ok rs h (by decide) (by simp; omega)
  simp at h1
  have hoff : (off.setWidth 16).toInt = off.toInt := by
    rw [BitVec.toInt_setWidth]
    have := BitVec.toInt_eq_toNat_bmod off
    have e : off.toInt.bmod (2 ^ 16) = off.toInt := by
      apply Int.bmod_eq_of_le <;> omega
    rw [← e, this, Int.bmod_bmod_of_dvd (by decide)]
  refine ⟨h2, fun i hi hi' o ho => ?_, fun i j hi hj hi' hj' o ho ho' => ?_⟩
  · have := h3 i hi hi'
    simp at this
    refine ⟨by have := ho.2; omega, fun p hp e => ?_⟩
    unfold ownPlace at e
    rw [hoff] at e
    have := ho.1; omega
  · rcases Nat.lt_trichotomy i j with hij | hij | hij
    · have := h4 i j hi hj hi' hj' hij; have := ho.1; have := ho'.2; omega
    · exact hij
    · have := h4 j i hj hi hj' hi' hij; have := ho'.1; have := ho.2; omega

example : layout 0 [.arr 3 .t32, .val, .arr 5 .t8] = .ok (-32, [⟨-16, 12⟩, ⟨-24, 8⟩, ⟨-32, 5⟩]) ∧
    total [.arr 3 .t32, .val, .arr 5 .t8] ≤ 32768 := by decide +kernel

/-- Without the bound: an array of 2^29 + 1 64-bit elements gets 8 bytes. -/
theorem C38_wrap_violated : layout 0 [.arr (2 ^ 29 + 1) .t64, .val] = .ok (-16, [⟨-8, 8⟩, ⟨-16, 8⟩]) := by decide +kernel

/-- Without the bound: with 64 KiB of arrays the stack of the program is not moved at all and overlaps the array. -/
theorem C38_trunc_violated : layout 0 [.arr 65536 .t8] = .ok (-65536, [⟨-65536, 65536⟩]) ∧
    ownPlace (-65536) (-8) = -8 ∧ Has ⟨-65536, 65536⟩ (.arr 65536 .t8) (-8) := by
  refine ⟨by decide +kernel, by decide +kernel, ?_⟩
  unfold Has; decide +kernel

/-! ## Moving the stack of the program -/

/-- The stack pointer of the second run is lower by `d` bytes; everything else is the same. -/
structure Moved (sp : Nat) (d : BitVec 64) (σ σ' : St) : Prop where
  rest : Agree (· ≠ sp) σ σ'
  ptr : σ.env sp = σ'.env sp + d
  var : σ'.var sp = σ.var sp

/-- No hole in the operands. -/
def NoHole (i : Insn) : Prop :=
  (∀ v ∈ Edit.operands i, ∀ k c ct b, v = .const k c ct b → k = .plain) ∧ (Edit.raw i.op = true → i.addrKind = .plain)

/-- What an instruction may do with the stack pointer: nothing, access memory at a constant offset that still fits
in 16 bits after moving, or compute `sp + constant`. `k` is the kind of that constant. -/
inductive Form (sp : Nat) (d : BitVec 16) (k : CKind) (i : Insn) : Prop
  | other : refs i sp = 0 → NoHole i → Form sp d k i
  | access : i.op = .loadraw ∨ i.op = .storeraw → i.addr = .insn sp → i.addrKind = .rawoff →
      (∀ v ∈ i.vals, v ≠ .insn sp) → -32768 ≤ i.addrOff.toInt + d.toInt → i.addrOff.toInt + d.toInt < 32768 → Form sp d k i
  | add (c : BitVec 64) (ct : AluTy) (b : Builtin) : i.op = .add → i.aluOp = .w64 →
      i.vals = [.insn sp, .const k c ct b] → Form sp d k i

theorem shiftVal_plain {d : BitVec 16} {v : Val} (h : ∀ k c ct b, v = .const k c ct b → k = .plain) : shiftVal d v = v := by
  cases v with
  | const k c ct b => have := h k c ct b rfl; subst this; rfl
  | insn y => rfl
  | undef => rfl

theorem shiftInsn_noHole {d : BitVec 16} {i : Insn} (h : NoHole i) : shiftInsn d i = i := by
  have hm : Edit.mapOps (shiftVal d) i = i := by
    obtain ⟨op, vals, phi, addr, addrOff, addrKind, aluOp, vrType, bb1, bb2, aux, immKind, imm64⟩ := i
    obtain ⟨h1, _⟩ := h
    unfold Edit.operands at h1
    dsimp only at h1
    unfold Edit.mapOps
    dsimp only
    have e1 : vals.map (shiftVal d) = vals := map_id_of fun v hv => shiftVal_plain (h1 v (by simp [hv]))
    have e2 : (if op = .phi then phi.map (fun o => (o.1, shiftVal d o.2)) else phi) = phi := by
      split
      · rename_i hp
        exact map_id_of fun o ho => by
          rw [shiftVal_plain (h1 o.2 (by simp only [hp, if_true, List.mem_append, List.mem_map]; exact .inl (.inr ⟨o, ho, rfl⟩)))]
      · rfl
    have e3 : (if Edit.raw op then shiftVal d addr else addr) = addr := by
      split
      · rename_i hp
        exact shiftVal_plain (h1 addr (by simp [hp]))
      · rfl
    rw [e1, e2, e3]
  unfold shiftInsn
  split
  · rename_i hr
    have : i.addrKind = .plain := h.2 (by unfold Edit.raw; rcases hr with h | h <;> simp [h])
    rw [this]; exact hm
  · exact hm

theorem signExtend_add {a d : BitVec 16} (h1 : -32768 ≤ a.toInt + d.toInt) (h2 : a.toInt + d.toInt < 32768) :
    (a + d).signExtend 64 = a.signExtend 64 + d.signExtend 64 := by
  apply BitVec.eq_of_toInt_eq
  have l := BitVec.toInt_lt (x := a); have l' := BitVec.le_toInt a
  have m := BitVec.toInt_lt (x := d); have m' := BitVec.le_toInt d
  rw [BitVec.toInt_signExtend_of_le (by decide), BitVec.toInt_add, BitVec.toInt_add,
    BitVec.toInt_signExtend_of_le (by decide), BitVec.toInt_signExtend_of_le (by decide)]
  rw [Int.bmod_eq_of_le (by omega) (by omega), Int.bmod_eq_of_le (by omega) (by omega)]

theorem Moved.set {sp : Nat} {d : BitVec 64} {σ σ' : St} (h : Moved sp d σ σ') {x : Nat} (hx : x ≠ sp) (v : BitVec 64) :
    Moved sp d (σ.set x v) (σ'.set x v) :=
  ⟨h.rest.set x v, by simp [St.set, Ne.symm hx, h.ptr], h.var⟩

theorem Moved.eval {sp : Nat} {d : BitVec 64} {σ σ' : St} (h : Moved sp d σ σ') {v : Val} (hv : v ≠ .insn sp) :
    IR.eval σ' v = IR.eval σ v := eval_agree h.rest fun y e he => hv (by rw [e, he])

theorem shiftInsn_op (d : BitVec 16) (i : Insn) :
    (shiftInsn d i).op = i.op ∧ (shiftInsn d i).bb1 = i.bb1 ∧ (shiftInsn d i).bb2 = i.bb2 := by
  unfold shiftInsn
  split
  · split <;> exact ⟨rfl, rfl, rfl⟩
  · exact ⟨rfl, rfl, rfl⟩

theorem lock_shift {W : World} {f : Fn} {d : BitVec 16} {x : Nat} (hx : x ≠ f.sp)
    (hf : Form f.sp d .rawoff (f.insn x)) : Lock W (Moved f.sp (d.signExtend 64)) f (shift d f) x := by
  have hop := shiftInsn_op d (f.insn x)
  cases hf with
  | other hr hn =>
    have e : (shift d f).insn x = f.insn x := shiftInsn_noHole hn
    have hin : InsIn (· ≠ f.sp) (f.insn x) :=
      ⟨fun v hv y e h => vals_ne_of_refs hr v hv (by rw [e, h]), fun ho y e h => addr_ne_of_refs hr ho (by rw [e, h])⟩
    constructor
    · rw [e]
    · rw [e]
    · rw [e]
    · intro σ σ' hm _
      rw [e]
      have ha := exec_agree hm.rest W x hin
      revert ha
      cases h1 : exec W x (f.insn x) σ with
      | none => cases h2 : exec W x (f.insn x) σ' with
        | none => intro _; exact .none
        | some b => intro h; cases h
      | some a => cases h2 : exec W x (f.insn x) σ' with
        | none => intro h; cases h
        | some b =>
          intro h
          cases h with
          | some _ _ h =>
            refine .some _ _ ⟨h, ?_, ?_⟩
            · rw [exec_env h1 (Ne.symm hx), exec_env h2 (Ne.symm hx)]; exact hm.ptr
            · rw [exec_var h1 (vals_ne_of_refs hr), exec_var h2 (vals_ne_of_refs hr)]; exact hm.var
    · intro σ σ' hm _
      rw [e]; exact taken_agree hm.rest hin
    · intro σ σ' hm _
      rw [e]
      exact List.map_congr_left fun v hv => hm.eval (vals_ne_of_refs hr v hv)
    · intro σ σ' hm hp p
      rw [e]
      exact phiVal_agree hm.rest (fun o ho y e h => phi_ne_of_refs hr hp o ho (by rw [e, h])) p
  | access ho ha hk hv h1 h2 =>
    have e : (shift d f).insn x = { f.insn x with addrOff := (f.insn x).addrOff + d, addrKind := .plain } := by
      show shiftInsn d (f.insn x) = _
      unfold shiftInsn
      rw [if_pos ho, hk]
    constructor
    · exact hop.1
    · exact hop.2.1
    · exact hop.2.2
    · intro σ σ' hm _
      rw [e]
      have ea : ∀ τ : St, eval τ (f.insn x).addr = some (τ.env f.sp) := fun τ => by rw [ha]; rfl
      have ead : σ'.env f.sp + BitVec.signExtend 64 ((f.insn x).addrOff + d) =
          σ.env f.sp + (f.insn x).addrOff.signExtend 64 := by
        rw [signExtend_add h1 h2, hm.ptr]; ac_rfl
      rcases ho with ho | ho
      · unfold exec
        simp only [ho, ea, Option.bind_eq_bind, Option.bind_some, ead, hm.rest.mem]
        cases Flat.bytes (f.insn x).vrType with
        | none => exact .none
        | some n => exact .some _ _ (hm.set hx _)
      · unfold exec
        simp only [ho]
        rcases hvs : (f.insn x).vals with _ | ⟨v, _ | ⟨_, _⟩⟩
        · exact .none
        · simp only [ea, Option.bind_eq_bind, Option.bind_some, ead, hm.rest.mem, hm.eval (hv v (by simp [hvs]))]
          cases Flat.bytes (f.insn x).vrType with
          | none => exact .none
          | some n =>
            cases eval σ v with
            | none => exact .none
            | some y => exact .some _ _ ⟨⟨hm.rest.env, hm.rest.var, rfl, hm.rest.trace⟩, hm.ptr, hm.var⟩
        · exact .none
    · intro _ _ _ hc; rcases ho with ho | ho <;> rw [ho] at hc <;> cases hc
    · intro _ _ _ hc; rcases ho with ho | ho <;> rw [ho] at hc <;> cases hc
    · intro _ _ _ hc; rcases ho with ho | ho <;> rw [ho] at hc <;> cases hc
  | add c ct b ho hw hv =>
    have e : (shift d f).insn x = Edit.mapOps (shiftVal d) (f.insn x) := by
      show shiftInsn d (f.insn x) = _
      unfold shiftInsn
      rw [if_neg (by rw [ho]; decide)]
    constructor
    · exact hop.1
    · exact hop.2.1
    · exact hop.2.2
    · intro σ σ' hm _
      have e1 : exec W x (f.insn x) σ = some (σ.set x (σ.env f.sp + c)) := by
        unfold exec; simp only [ho, hw, hv]; rfl
      have e2 : exec W x ((shift d f).insn x) σ' = some (σ'.set x (σ'.env f.sp + (c + d.signExtend 64))) := by
        rw [e]; unfold exec Edit.mapOps; simp only [ho, hw, hv]; rfl
      rw [e1, e2, hm.ptr]
      have : σ'.env f.sp + (c + d.signExtend 64) = σ'.env f.sp + d.signExtend 64 + c := by ac_rfl
      rw [this]
      exact .some _ _ (hm.set hx _)
    · intro _ _ _ hc; rw [ho] at hc; cases hc
    · intro _ _ _ hc; rw [ho] at hc; cases hc
    · intro _ _ _ hc; rw [ho] at hc; cases hc

theorem setOk_moved {sp : Nat} {d : BitVec 64} {x : Nat} (hx : x ≠ sp) : SetOk (Moved sp d) x := by
  intro σ σ' e e' h v
  refine ⟨⟨fun y hy => ?_, h.rest.var, h.rest.mem, h.rest.trace⟩, ?_, h.var⟩
  · have := h.rest.env y hy
    dsimp only at this ⊢
    rw [this]
  · have := h.ptr
    dsimp only at this ⊢
    rw [if_neg (Ne.symm hx), if_neg (Ne.symm hx)]; exact this

/-- `shift`: the function whose stack instructions were moved by `d` runs as before if the stack pointer is lower by
`d` (so that its own stack accesses are `d` lower than they would be). -/
theorem C38_shift (W : World) (f : Fn) (d : BitVec 16)
    (hsp : ∀ b, f.sp ∉ f.body b) (hf : ∀ b, ∀ x ∈ f.body b, Form f.sp d .rawoff (f.insn x))
    (n : Nat) (b : Nat) (rest : List Nat) (hr : ∀ x ∈ rest, x ∈ f.body b) (σ σ' : St)
    (h : Moved f.sp (d.signExtend 64) σ σ') :
    RelRes (Moved f.sp (d.signExtend 64)) (run W f n b rest σ) (run W (shift d f) n b rest σ') :=
  run_lock (f := f) (g := shift d f) rfl rfl (fun c x hx =>
    have hne : x ≠ f.sp := fun e => hsp c (by rw [← e]; exact hx)
    ⟨lock_shift hne (hf c x hx), setOk_moved hne⟩) n b rest σ σ' h hr

/-- The instruction after `pre` has handled it. -/
def prep (sp : Nat) (i : Insn) : Insn :=
  match i.op, i.vals with
  | .add, [.insn y, .const .plain c ct b] => if y = sp then { i with vals := [.insn y, .const .rawoff c ct b] } else i
  | _, _ => i

theorem preOne_ok {f : Fn} {d : BitVec 16} {x : Nat} (hf : Form f.sp d .plain (f.insn x))
    (hr : 0 < refs (f.insn x) f.sp) : preOne f x = .ok { f with insn := Edit.upd f.insn x (prep f.sp (f.insn x)) } := by
  unfold preOne
  cases hf with
  | other h _ => omega
  | access ho ha hk hv h1 h2 =>
    rw [if_pos ho]
    have : Edit.upd f.insn x (prep f.sp (f.insn x)) = f.insn := by
      funext y
      unfold Edit.upd
      split
      · rename_i e; subst e
        unfold prep
        rcases ho with ho | ho <;> rw [ho]
      · rfl
    rw [this]
  | add c ct b ho hw hv =>
    rw [if_neg (by rw [ho]; decide)]
    have h1 : constHole f (f.insn x) = some { f.insn x with vals := [.insn f.sp, .const .rawoff c ct b] } := by
      unfold constHole
      rw [hv]
      simp only [ho]
      rw [if_pos (by simp [Norm.Op.binAlu])]
    have h2 : prep f.sp (f.insn x) = { f.insn x with vals := [.insn f.sp, .const .rawoff c ct b] } := by
      unfold prep
      simp only [ho, hv, if_true]
    rw [h1, h2]

theorem preLoop_ok {d : BitVec 16} : ∀ (n k : Nat) (f : Fn), k + n = (f.users f.sp).length → (f.users f.sp).Nodup →
    (∀ x ∈ (f.users f.sp).drop k, Form f.sp d .plain (f.insn x) ∧ 0 < refs (f.insn x) f.sp) →
    preLoop k n f = .ok { f with insn := fun x => if x ∈ (f.users f.sp).drop k then prep f.sp (f.insn x) else f.insn x }
  | 0, k, f, hn, _, _ => by
    have : (f.users f.sp).drop k = [] := List.drop_eq_nil_of_le (by omega)
    simp only [preLoop, this]
    rfl
  | n + 1, k, f, hn, hd, hf => by
    have hk : k < (f.users f.sp).length := by omega
    have hdr := List.drop_eq_getElem_cons hk
    simp only [preLoop]
    rw [List.getElem?_eq_getElem hk]
    generalize hx : (f.users f.sp)[k] = x at hdr ⊢
    have hxd := hf x (by rw [hdr]; simp)
    dsimp only
    rw [preOne_ok hxd.1 hxd.2]
    have hnd : (x :: (f.users f.sp).drop (k + 1)).Nodup := by rw [← hdr]; exact hd.sublist (List.drop_sublist _ _)
    have hni : x ∉ (f.users f.sp).drop (k + 1) := (List.nodup_cons.1 hnd).1
    have hsame : ∀ y ∈ (f.users f.sp).drop (k + 1), Edit.upd f.insn x (prep f.sp (f.insn x)) y = f.insn y := by
      intro y hy
      have : y ≠ x := fun e => hni (by rw [← e]; exact hy)
      simp [Edit.upd, this]
    have ih := preLoop_ok (d := d) n (k + 1) { f with insn := Edit.upd f.insn x (prep f.sp (f.insn x)) } (by simpa using by omega) hd
      (fun y hy => by
        dsimp only at hy ⊢
        rw [hsame y hy]
        exact hf y (by rw [hdr]; exact List.mem_cons_of_mem _ hy))
    show preLoop (k + 1) n _ = _
    rw [ih]
    dsimp only
    congr 2
    funext y
    rw [hdr]
    by_cases hy : y ∈ (f.users f.sp).drop (k + 1)
    · rw [if_pos hy, if_pos (List.mem_cons_of_mem _ hy), hsame y hy]
    · rw [if_neg hy]
      by_cases e : y = x
      · subst e; simp [Edit.upd]
      · rw [if_neg (by simp [e, hy])]; simp [Edit.upd, e]

theorem prep_form {sp : Nat} {d : BitVec 16} {i : Insn} (h : Form sp d .plain i) : Form sp d .rawoff (prep sp i) := by
  cases h with
  | other hr hn =>
    have : prep sp i = i := by
      unfold prep
      split
      · rename_i ho hv
        split
        · rename_i e
          exact absurd (congrArg Val.insn e) (vals_ne_of_refs hr _ (by rw [hv]; simp))
        · rfl
      · rfl
    rw [this]; exact .other hr hn
  | access ho ha hk hv h1 h2 =>
    have : prep sp i = i := by
      unfold prep
      rcases ho with ho | ho <;> rw [ho]
    rw [this]; exact .access ho ha hk hv h1 h2
  | add c ct b ho hw hv =>
    have : prep sp i = { i with vals := [.insn sp, .const .rawoff c ct b] } := by
      unfold prep; rw [ho, hv]; simp
    rw [this]; exact .add c ct b ho hw rfl

theorem prep_noref {sp : Nat} {i : Insn} (hr : refs i sp = 0) : prep sp i = i := by
  unfold prep
  split
  · rename_i ho hv
    split
    · rename_i e
      exact absurd (congrArg Val.insn e) (vals_ne_of_refs hr _ (by rw [hv]; simp))
    · rfl
  · rfl

theorem exec_prep (W : World) (x sp : Nat) (i : Insn) (σ : St) : exec W x (prep sp i) σ = exec W x i σ := by
  unfold prep
  split
  · rename_i ho hv
    split
    · unfold exec; simp only [ho, hv]; rfl
    · rfl
  · rfl

theorem prep_same (sp : Nat) (i : Insn) : (prep sp i).op = i.op ∧ (prep sp i).bb1 = i.bb1 ∧ (prep sp i).bb2 = i.bb2 ∧
    (prep sp i).phi = i.phi ∧ (i.op ≠ .add → prep sp i = i) := by
  unfold prep
  split
  · rename_i ho _
    split
    · exact ⟨rfl, rfl, rfl, rfl, fun h => absurd ho h⟩
    · exact ⟨rfl, rfl, rfl, rfl, fun _ => rfl⟩
  · exact ⟨rfl, rfl, rfl, rfl, fun _ => rfl⟩

theorem lock_prep (W : World) (f : Fn) (g : Fn) (x : Nat) (h : g.insn x = prep f.sp (f.insn x)) : Lock W Eq f g x := by
  have hs := prep_same f.sp (f.insn x)
  refine ⟨by rw [h]; exact hs.1, by rw [h]; exact hs.2.1, by rw [h]; exact hs.2.2.1, ?_, ?_, ?_, ?_⟩
  · intro σ σ' e _
    subst e
    rw [h, exec_prep]
    cases exec W x (f.insn x) σ with
    | none => exact .none
    | some a => exact .some _ _ rfl
  · intro σ σ' e hc
    subst e
    rw [h, hs.2.2.2.2 (fun ho => by rw [ho] at hc; cases hc)]
  · intro σ σ' e hc
    subst e
    rw [h, hs.2.2.2.2 (fun ho => by rw [ho] at hc; cases hc)]
  · intro σ σ' e hc p
    subst e
    rw [h, hs.2.2.2.2 (fun ho => by rw [ho] at hc; cases hc)]

/-- Both phases.  If the stack pointer is only used for accesses at constant offsets and in `sp + constant`, the
first phase succeeds and after the second, with any offset `d`, the function behaves as the original one with a
stack pointer lower by `d`: its own stack accesses keep their distances and are all moved by `d`. -/
theorem C38_move_partial (W : World) (f : Fn) (d : BitVec 16) (hu : (f.users f.sp).Nodup)
    (hux : ∀ x ∈ f.users f.sp, 0 < refs (f.insn x) f.sp ∧ ∃ b, x ∈ f.body b)
    (hxu : ∀ b, ∀ x ∈ f.body b, 0 < refs (f.insn x) f.sp → x ∈ f.users f.sp)
    (hsp : ∀ b, f.sp ∉ f.body b) (hf : ∀ b, ∀ x ∈ f.body b, Form f.sp d .plain (f.insn x)) :
    ∃ g, pre f = .ok g ∧ ∀ (n : Nat) (σ σ' : St), Moved f.sp (d.signExtend 64) σ σ' →
      RelRes (Moved f.sp (d.signExtend 64)) (runFn W f n σ) (runFn W (shift d g) n σ') := by
  have hp := preLoop_ok (d := d) (f.users f.sp).length 0 f (by simp) hu (fun x hx => by
    obtain ⟨h1, b, h2⟩ := hux x (by simpa using hx)
    exact ⟨hf b x h2, h1⟩)
  refine ⟨_, hp, fun n σ σ' hm => ?_⟩
  simp only [List.drop_zero] at hp ⊢
  generalize hg : ({ f with insn := fun x => if x ∈ f.users f.sp then prep f.sp (f.insn x) else f.insn x } : Fn) = g
  have gb : g.body = f.body := by rw [← hg]
  have gs : g.succs = f.succs := by rw [← hg]
  have gsp : g.sp = f.sp := by rw [← hg]
  have ge : g.entry = f.entry := by rw [← hg]
  have gi : ∀ b, ∀ x ∈ f.body b, g.insn x = prep f.sp (f.insn x) := by
    intro b x hx
    rw [← hg]
    dsimp only
    split
    · rfl
    · rename_i h
      exact (prep_noref (Nat.eq_zero_of_not_pos fun hp => h (hxu b x hx hp))).symm
  have r1 := run_lock (W := W) (R := Eq) (f := f) (g := g) gb gs
    (fun b x hx => ⟨lock_prep W f g x (gi b x hx), fun σ σ' e e' h v => by
      have h1 : e = e' := congrArg St.env h
      have h2 := congrArg St.var h
      have h3 := congrArg St.mem h
      have h4 := congrArg St.trace h
      dsimp only at h2 h3 h4
      rw [h1, h2, h3, h4]⟩) n f.entry (f.body f.entry) σ σ rfl (fun x hx => hx)
  have r2 := C38_shift W g d (by rw [gsp, gb]; exact hsp)
    (fun b x hx => by
      rw [gb] at hx
      rw [gi b x hx, gsp]
      exact prep_form (hf b x hx)) n f.entry (f.body f.entry) (fun x hx => by rw [gb]; exact hx) σ σ' (by rw [gsp]; exact hm)
  have r3 := (RelRes.trans r1 r2).mono (R := Moved f.sp (d.signExtend 64)) (by
    rintro a c ⟨ρ, rfl, h⟩
    rw [gsp] at h; exact h)
  unfold runFn
  show RelRes _ _ (run W (shift d g) n g.entry (g.body g.entry) σ')
  rw [ge, gb]
  exact r3

/-! ## Cases -/

/-- A function of one block with the instructions `is` numbered from 1; 0 is the stack pointer. -/
def fnOf (is : List Insn) (us : List Nat) : Fn where
  insn := fun x => if x = 0 then { op := .reg, aux := 10 } else is.getD (x - 1) { op := .throw }
  users := fun x => if x = 0 then us else []
  next := is.length + 1
  parent := fun _ => 0
  body := fun b => if b = 0 then (List.range is.length).map (· + 1) else []
  preds := fun _ => []
  succs := fun _ => []
  allBbs := [0]
  entry := 0
  sp := 0
  args := []

/-- The state with the stack pointer `s`. -/
def stAt (s : BitVec 64) : St := { env := fun x => if x = 0 then s else 0, var := fun _ => 0, mem := fun _ => 0, trace := [] }

/-- The value returned. -/
def retAt (f : Fn) (s : BitVec 64) : Option (BitVec 64) :=
  match runFn Lift.exWI f 20 (stAt s) with
  | .done x _ => some x
  | _ => none

/-- Run the original with the stack pointer at 0x1000 - 16 and the moved function with 0x1000. -/
def both (is : List Insn) (us : List Nat) : Option (BitVec 64) × Option (BitVec 64) :=
  (retAt (fnOf is us) (0x1000 - 16),
    match pre (fnOf is us) with
    | .ok g => retAt (shift (-16) g) 0x1000
    | _ => none)

def ret (x : Nat) : Insn := { op := .ret, vals := [.insn x] }

/-- `*(u64 *)(r10 - 8) = 7; r2 = r10; r2 += -8; return *r2` -/
def exIs : List Insn :=
  [Edit.mkStoreraw .t64 (.insn 0) (-8) .rawoff (Edit.const64 7), Edit.mkBin .add .w64 (.insn 0) (Edit.const32 (-8)),
   Edit.mkLoadraw .t64 (.insn 2) 0 .plain, ret 3]

example : ∀ b, ∀ x ∈ (fnOf exIs [1, 2]).body b, Form 0 (-16) .plain ((fnOf exIs [1, 2]).insn x) := by
  intro b x hx
  have : x = 1 ∨ x = 2 ∨ x = 3 ∨ x = 4 := by
    by_cases hb : b = 0
    · subst hb
      have hx : x ∈ [1, 2, 3, 4] := hx
      simpa using hx
    · simp only [fnOf, if_neg hb] at hx; cases hx
  rcases this with rfl | rfl | rfl | rfl
  · exact .access (.inr rfl) rfl rfl (by decide) (by decide) (by decide)
  · exact .add _ _ _ rfl rfl rfl
  · exact .other (by decide) ⟨by intro v hv k c ct b e; simp [fnOf, exIs, Edit.operands, Edit.mkLoadraw, Edit.raw] at hv; rw [e] at hv; exact absurd hv (by simp), fun _ => rfl⟩
  · exact .other (by decide) ⟨by intro v hv k c ct b e; simp [fnOf, exIs, Edit.operands, ret, Edit.raw] at hv; rw [e] at hv; exact absurd hv (by simp), fun h => by cases h⟩

example : both exIs [1, 2] = (some 7, some 7) := by decide +kernel

/-- `r2 = r10; r2 -= 8`: the offset is added to the subtracted constant, so the address moves the wrong way. -/
theorem C38_sub_violated :
    both [Edit.mkBin .sub .w64 (.insn 0) (Edit.const32 8), ret 1] [1] = (some (0x1000 - 24), some (0x1000 + 8)) := by
  decide +kernel

/-- `*(u64 *)(r10 - 8) = 7; r2 = r10; return *(u64 *)(r2 - 8)`: the access through the copy of r10 is not moved
(it is not marked by the lifter) and reads what may be a spill slot. -/
theorem C38_copy_violated :
    both [Edit.mkStoreraw .t64 (.insn 0) (-8) .rawoff (Edit.const64 7), Edit.mkLoadraw .t64 (.insn 0) (-8) .plain, ret 2] [1, 2] =
    (some 7, some 0) := by decide +kernel

/-- `r2 = r10` stored to memory: the stored pointer is not moved. -/
theorem C38_stored_violated :
    both [Edit.mkStoreraw .t64 (.insn 0) (-8) .rawoff (.insn 0), Edit.mkLoadraw .t64 (.insn 0) (-8) .rawoff, ret 2] [1, 1, 2] =
    (some (0x1000 - 16), some 0x1000) := by decide +kernel

/-- The stack pointer used as a value by a move and then by a load: the array of users changes while it is walked,
so the new `sp + hole` itself is handled and the offset is added twice. -/
theorem C38_users_violated :
    both [Edit.mkAssign (.insn 0), Edit.mkLoadraw .t64 (.insn 0) (-8) .rawoff, ret 1] [1, 2] =
    (some (0x1000 - 16), some (0x1000 - 32)) := by decide +kernel

end Verif.Stack
