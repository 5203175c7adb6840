import Verif.Lift.Model
import Verif.Spec.Ir
/-!
# What the lifter chooses, in terms of the decoded instruction
-/
namespace Verif.Lift
open Verif Verif.Bpf Verif.IR Verif.GenBB
set_option linter.unusedSimpArgs false

def irAlu : AluOp → Op
  | .add => .add | .sub => .sub | .mul => .mul | .div => .div | .or => .or | .and => .and
  | .lsh => .lsh | .rsh => .rsh | .mod => .mod | .xor => .xor | .mov => .assign | .arsh => .arsh

def irCond : Cond → Option Op
  | .eq => some .jeq | .gt => some .jgt | .ge => some .jge | .set => none | .ne => some .jne
  | .sgt => some .jsgt | .sge => some .jsge | .lt => some .jlt | .le => some .jle
  | .slt => some .jslt | .sle => some .jsle

def ty (w : Bool) : AluTy := if w then .w64 else .w32

def szTy : Size → VrTy
  | .b => .t8 | .h => .t16 | .w => .t32 | .dw => .t64

def opd : Src → Opd
  | .reg r => .reg r.toNat
  | .imm i => .imm i

/-- The choice of `plan` for a decoded instruction. -/
def planI (C : List Blk) (defd : Nat → Bool) (q : PreInsn) : Instr → Out Act
  | .alu w op d src =>
    if op = .mov then .ok (.mov d.toNat (opd src))
    else .ok (.emit { op := irAlu op, aluOp := ty w } none [.reg d.toNat, opd src] (some d.toNat))
  | .neg w d => .ok (.emit { op := .neg, aluOp := ty w } none [.reg d.toNat] (some d.toNat))
  | .swap be d wd =>
    .ok (.emit { op := if be then .htobe else .htole, aluOp := .w32, aux := wd } none [.reg d.toNat] (some d.toNat))
  | .ldimm d k =>
    if k.toNat ≤ 6 then .ok (.emit { op := .loadimm, immKind := k.toNat, imm64 := q.imm64 } none [] (some d.toNat))
    else .err
  | .ldx _ sz d s off =>
    .ok (.emit { op := .loadraw, vrType := szTy sz, addrOff := off, addrKind := offKind s } (some s.toNat) [] (some d.toNat))
  | .st sz d off imm =>
    .ok (.emit { op := .storeraw, vrType := szTy sz, addrOff := off, addrKind := offKind d } (some d.toNat) [.imm imm] none)
  | .stx sz d s off =>
    .ok (.emit { op := .storeraw, vrType := szTy sz, addrOff := off, addrKind := offKind d } (some d.toNat) [.reg s.toNat] none)
  | .ja off => do
    let t ← bbAt C (q.pos + off.toInt + 1)
    .ok (.emit { op := .ja, bb1 := t } none [] none)
  | .jcc w c d src off =>
    match irCond c with
    | none => .err
    | some o => do
      let t1 ← bbAt C (q.pos + 1)
      let t2 ← bbAt C (q.pos + off.toInt + 1)
      .ok (.emit { op := o, aluOp := ty w, bb1 := t1, bb2 := t2 } none [.reg d.toNat, opd src] none)
  | .call _ => planCall defd q.slot
  | .exit => .ok (.emit { op := .ret } none [.reg 0] none)

theorem opd_src (s : Slot) : opd (if s.code.toNat / 8 % 2 = 1 then Src.reg s.src else Src.imm s.imm) = srcOpd s := by
  unfold srcOpd; split <;> rfl

theorem szTy_sizeOf (c : BitVec 8) : szTy (Bpf.sizeOf (c.toNat / 8 % 4)) = ldTy c := by
  have : c.toNat / 8 % 4 = 0 ∨ c.toNat / 8 % 4 = 1 ∨ c.toNat / 8 % 4 = 2 ∨ c.toNat / 8 % 4 = 3 := by omega
  unfold ldTy
  rcases this with h | h | h | h <;> rw [h] <;> rfl

theorem op_cases (c : BitVec 8) : c.toNat / 16 = 0 ∨ c.toNat / 16 = 1 ∨ c.toNat / 16 = 2 ∨ c.toNat / 16 = 3 ∨
    c.toNat / 16 = 4 ∨ c.toNat / 16 = 5 ∨ c.toNat / 16 = 6 ∨ c.toNat / 16 = 7 ∨ c.toNat / 16 = 8 ∨ c.toNat / 16 = 9 ∨
    c.toNat / 16 = 10 ∨ c.toNat / 16 = 11 ∨ c.toNat / 16 = 12 ∨ c.toNat / 16 = 13 ∨ c.toNat / 16 = 14 ∨ c.toNat / 16 = 15 := by
  have := c.isLt; omega

theorem plan_decode (C : List Blk) (defd : Nat → Bool) (q : PreInsn) {i : Instr} (h : decode q.slot = some i) :
    plan C defd q = planI C defd q i := by
  have hcls : q.slot.code.toNat % 8 = 0 ∨ q.slot.code.toNat % 8 = 1 ∨ q.slot.code.toNat % 8 = 2 ∨ q.slot.code.toNat % 8 = 3 ∨
    q.slot.code.toNat % 8 = 4 ∨ q.slot.code.toNat % 8 = 5 ∨ q.slot.code.toNat % 8 = 6 ∨ q.slot.code.toNat % 8 = 7 := by omega
  unfold decode at h
  dsimp only at h
  rcases hcls with hc | hc | hc | hc | hc | hc | hc | hc
  · simp only [hc] at h
    split at h
    · rename_i h18
      cases h
      unfold plan; dsimp only
      rw [if_neg (by omega), if_pos h18]; rfl
    · simp at h
  · simp only [hc] at h
    split at h
    · rename_i hm
      cases h
      unfold plan; dsimp only
      rw [if_neg (by omega), if_neg (by omega), if_neg (by omega), if_pos ⟨hc, hm⟩]
      simp only [planI, szTy_sizeOf]
    · split at h
      · rename_i hm
        cases h
        unfold plan; dsimp only
        rw [if_neg (by omega), if_neg (by omega), if_pos ⟨hc, hm⟩]
        simp only [planI, szTy_sizeOf]
      · simp at h
  · simp only [hc] at h
    split at h
    · rename_i hm
      cases h
      unfold plan; dsimp only
      rw [if_neg (by omega), if_neg (by omega), if_neg (by omega), if_neg (by omega), if_pos ⟨hc, hm⟩]
      simp only [planI, szTy_sizeOf]
    · simp at h
  · simp only [hc] at h
    split at h
    · rename_i hm
      cases h
      unfold plan; dsimp only
      rw [if_neg (by omega), if_neg (by omega), if_neg (by omega), if_neg (by omega), if_neg (by omega), if_pos ⟨hc, hm⟩]
      simp only [planI, szTy_sizeOf]
    · simp at h
  · simp only [hc] at h
    split at h
    · simp at h
    unfold plan; dsimp only
    rw [if_pos (.inl hc), hc]
    rcases op_cases q.slot.code with ho | ho | ho | ho | ho | ho | ho | ho | ho | ho | ho | ho | ho | ho | ho | ho <;>
      rw [ho] at h ⊢ <;> simp [Bpf.aluOp] at h <;>
      first
        | (subst h; simp [aluIr, planI, irAlu, ty, opd_src]; done)
        | (obtain ⟨h1, rfl⟩ := h; simp [aluIr, planI, ty, h1]; done)
        | (subst h; by_cases hx : q.slot.code.toNat / 8 % 2 = 1 <;> simp [aluIr, planI, hx])
  · simp only [hc] at h
    unfold plan; dsimp only
    rw [if_neg (by omega), if_neg (by omega), if_neg (by omega), if_neg (by omega), if_neg (by omega), if_neg (by omega),
      if_pos (.inl hc), hc]
    rcases op_cases q.slot.code with ho | ho | ho | ho | ho | ho | ho | ho | ho | ho | ho | ho | ho | ho | ho | ho <;>
      rw [ho] at h ⊢ <;> simp [Bpf.condOp] at h <;>
      first
        | (subst h; simp [condIr, planI, irCond, ty, opd_src]; done)
        | (obtain ⟨h1, rfl⟩ := h; simp [condIr, planI, ty, h1]; done)
        | (obtain ⟨⟨h1, h2⟩, rfl⟩ := h; simp [condIr, planI, ty, h1])
  · simp only [hc] at h
    unfold plan; dsimp only
    rw [if_neg (by omega), if_neg (by omega), if_neg (by omega), if_neg (by omega), if_neg (by omega), if_neg (by omega),
      if_pos (.inr hc), hc]
    rcases op_cases q.slot.code with ho | ho | ho | ho | ho | ho | ho | ho | ho | ho | ho | ho | ho | ho | ho | ho <;>
      rw [ho] at h ⊢ <;> simp [Bpf.condOp] at h <;>
      (subst h; simp [condIr, planI, irCond, ty, opd_src]; done)
  · simp only [hc] at h
    split at h
    · simp at h
    unfold plan; dsimp only
    rw [if_pos (.inr hc), hc]
    rcases op_cases q.slot.code with ho | ho | ho | ho | ho | ho | ho | ho | ho | ho | ho | ho | ho | ho | ho | ho <;>
      rw [ho] at h ⊢ <;> simp [Bpf.aluOp] at h <;>
      first
        | (subst h; simp [aluIr, planI, irAlu, ty, opd_src]; done)
        | (obtain ⟨h1, rfl⟩ := h; simp [aluIr, planI, ty, h1]; done)

end Verif.Lift
