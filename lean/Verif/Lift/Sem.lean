import Verif.Lift.Ssa
import Verif.Lift.Plan
/-!
# One lifted instruction computes what the machine computes
-/
namespace Verif.Lift
open Verif Verif.Bpf Verif.IR Verif.GenBB
set_option linter.unusedSimpArgs false
set_option linter.unusedVariables false

/-- A call with the arguments the helper takes. -/
def cutEv (e : Event) : Event := ⟨e.fid, e.args.take (arity e.fid)⟩

/-- The two worlds agree: helpers look only at the arguments they take, and leave r1..r5 alone. -/
structure Agree (W : Bpf.World) (WI : IR.World) : Prop where
  ldimm : WI.bpf.ldimm = W.ldimm
  ret : ∀ tr fid (args : List (BitVec 64)) mem, args.length = 5 →
    (WI.bpf.call (tr.map cutEv) fid (args.take (arity fid)) mem).ret = (W.call tr fid args mem).ret
  mem : ∀ tr fid (args : List (BitVec 64)) mem, args.length = 5 →
    (WI.bpf.call (tr.map cutEv) fid (args.take (arity fid)) mem).mem = (W.call tr fid args mem).mem
  clob : ∀ tr fid (args : List (BitVec 64)) mem k, args.length = 5 → 1 ≤ k → k ≤ 5 →
    args[k - 1]? = some ((W.call tr fid args mem).clob k)

/-- The IR values in the map `m` are the contents of the registers. -/
structure Rel (m : M) (σ : Bpf.St) (τ : IR.St) : Prop where
  reg : ∀ r v, m r = some v → eval τ v = some (σ.reg r)
  mem : τ.mem = σ.mem
  trace : τ.trace = σ.trace.map cutEv

/-- Instructions that are lifted faithfully. -/
def Clean : Instr → Prop
  | .alu w .mov d src => d ≠ 10 ∧ (w = true ∨ ∃ i : BitVec 32, src = .imm i ∧ i.msb = false)
  | .alu _ _ d _ | .neg _ d | .swap _ d _ | .ldimm d _ => d ≠ 10
  | .ldx sx _ d _ _ => d ≠ 10 ∧ sx = false
  | .call fid => fid ≠ 6
  | _ => True

/-- Effect of a straight-line instruction on the machine. -/
def effect (W : Bpf.World) (q : PreInsn) (i : Instr) (σ : Bpf.St) : Option Bpf.St :=
  match i with
  | .ldimm d k => some (σ.set d.toNat (if k = 0 then q.imm64 else W.ldimm k.toNat q.imm64))
  | i => execInstr W i σ

def opdVal (σ : Bpf.St) : Opd → BitVec 64
  | .reg r => σ.reg r
  | .imm i => i.signExtend 64

theorem opdVal_opd (σ : Bpf.St) (src : Src) : opdVal σ (opd src) = src.val σ := by cases src <;> rfl

theorem Rel.opd {m σ τ} (h : Rel m σ τ) {o v} (hv : rdOpd m o = some v) : eval τ v = some (opdVal σ o) := by
  cases o with
  | imm i => cases hv; rfl
  | reg r => exact h.reg r v hv

theorem Rel.opds {m σ τ} (h : Rel m σ τ) {os : List Opd} : ∀ {vs}, rdOpds m os = some vs →
    evalAll τ vs = some (os.map (opdVal σ)) := by
  induction os with
  | nil => intro vs hv; cases hv; rfl
  | cons o os ih =>
    intro vs hv
    obtain ⟨w, ws, h1, h2, rfl⟩ := rdOpds_cons.1 hv
    simp [evalAll, h.opd h1, ih h2]

theorem eval_set {τ : IR.St} {x : Nat} {w : BitVec 64} {v : Val} (h : v ≠ .insn x) : eval (τ.set x w) v = eval τ v := by
  cases v with
  | insn y =>
    have : y ≠ x := fun e => h (by rw [e])
    simp [eval, IR.St.set, this]
  | _ => rfl

theorem Rel.write {m σ τ} (h : Rel m σ τ) {x d : Nat} {w : BitVec 64} (hf : ∀ r, m r ≠ some (.insn x)) (hd : d ≠ 10) :
    Rel (wr m d (.insn x)) (σ.set d w) (τ.set x w) := by
  refine ⟨?_, h.mem, h.trace⟩
  intro r v hv
  unfold wr upd at hv
  rw [if_neg hd] at hv
  simp only [Bpf.St.set]
  split at hv
  · rename_i e; cases hv; simp [eval, IR.St.set, e]
  · rename_i e
    rw [if_neg e, eval_set]
    · exact h.reg r v hv
    · intro e2; exact hf r (by rw [hv, e2])

theorem aluOp_irAlu {op : AluOp} (h : op ≠ .mov) : Flat.aluOp (irAlu op) = some op := by cases op <;> simp_all [irAlu, Flat.aluOp]
theorem width_ty (w : Bool) : Flat.width (ty w) = some w := by cases w <;> rfl
theorem bytes_szTy (s : Size) : Flat.bytes (szTy s) = some s.bytes := by cases s <;> rfl

theorem exec_alu {W : IR.World} {x : Nat} {i : Insn} {τ : IR.St} {op : AluOp} {w : Bool} {v0 v1 : Val} {a b : BitVec 64}
    (hop : op ≠ .mov) (h1 : i.op = irAlu op) (h2 : i.aluOp = ty w) (h3 : i.vals = [v0, v1])
    (h4 : eval τ v0 = some a) (h5 : eval τ v1 = some b) : IR.exec W x i τ = some (τ.set x (alu w op a b)) := by
  have h6 := aluOp_irAlu hop
  have h7 := width_ty w
  cases op <;> simp_all [IR.exec, irAlu, Flat.aluOp]

/-- Operations that the lifter never emits as straight-line code, or that leave the block. -/
def Straight (i : Insn) : Prop := i.op ≠ .ja ∧ i.op.condJmp = false ∧ i.op ≠ .ret ∧ i.op ≠ .throw ∧ i.op ≠ .phi

/-- The instructions `xs` (at most one) take `τ` to `τ'`. -/
def ExecL (W : IR.World) (ins : Nat → Insn) (xs : List Nat) (τ τ' : IR.St) : Prop :=
  (xs = [] ∧ τ' = τ) ∨ ∃ x, xs = [x] ∧ Straight (ins x) ∧ IR.exec W x (ins x) τ = some τ'

/-- Jumps and exit. -/
def isCtl : Instr → Bool
  | .ja _ | .jcc _ _ _ _ _ | .exit => true
  | _ => false

theorem zext_sext {i : BitVec 32} (h : i.msb = false) : i.signExtend 64 = i.setWidth 64 :=
  BitVec.signExtend_eq_setWidth_of_msb_false h

theorem alu_mov (w : Bool) (x y : BitVec 64) : alu w .mov x y = if w then y else (y.setWidth 32).setWidth 64 := by
  cases w <;> rfl

theorem args_take (σ : Bpf.St) (k : Nat) (hk : k ≤ 5) : (argOpds k).map (opdVal σ) = σ.args.take k := by
  have : k = 0 ∨ k = 1 ∨ k = 2 ∨ k = 3 ∨ k = 4 ∨ k = 5 := by omega
  rcases this with rfl | rfl | rfl | rfl | rfl | rfl <;> rfl

/-- The accepted helper calls. -/
theorem planCall_ok {defd : Nat → Bool} {s : Slot} {a : Act} (h : planCall defd s = .ok a) (h0 : s.src = 0) (h6 : s.imm ≠ 6) :
    a = .emit { op := .call, aux := s.imm } none (argOpds (arity s.imm)) (some 0) ∧ arity s.imm ≤ 5 := by
  unfold planCall at h
  rw [h0] at h
  simp only [show ¬ ((0 : BitVec 4) = 1) by decide, show ¬ ((0 : BitVec 4) = 2) by decide, show ¬ ((0 : BitVec 4) = 6) by decide,
    if_false] at h
  split at h
  · simp at h
  cases hk : helperArgs[s.imm.toNat]? with
  | none => rw [hk] at h; simp at h
  | some k =>
    rw [hk] at h
    dsimp only at h
    split at h
    · split at h
      · rename_i h1 h2
        exact absurd (BitVec.eq_of_toNat_eq (by rw [h2]; rfl)) h6
      · simp at h
    · split at h
      · simp at h
      · cases h
        have : arity s.imm = k.toNat := by simp [arity, hk]
        rw [this]
        exact ⟨rfl, by omega⟩

set_option maxHeartbeats 1000000 in
/-- Simulation of one straight-line instruction. -/
theorem straight_sim {W : Bpf.World} {WI : IR.World} (hW : Agree W WI) {C : List Blk} {defd : Nat → Bool} {q : PreInsn} {i : Instr}
    {a : Act} {ins : Nat → Insn} {m m1 : M} {xs : List Nat} {σ σ' : Bpf.St} {τ : IR.St}
    (hd : decode q.slot = some i) (hctl : isCtl i = false) (hcl : Clean i) (hsrc : ∀ f, i = .call f → q.slot.src = 0 ∧ f = q.slot.imm)
    (hp : plan C defd q = .ok a) (ht : Tr1 ins a m xs m1) (hf : ∀ x ∈ xs, ∀ r, m r ≠ some (.insn x)) (hr : Rel m σ τ)
    (he : effect W q i σ = some σ') : ∃ τ', ExecL WI ins xs τ τ' ∧ Rel m1 σ' τ' ∧ ∀ y, y ∉ xs → τ'.env y = τ.env y := by
  rw [plan_decode C defd q hd] at hp
  have hset : ∀ (x : Nat) (w : BitVec 64) (y : Nat), y ∉ [x] → (τ.set x w).env y = τ.env y := by
    intro x w y hy
    have : y ≠ x := by simpa using hy
    simp [IR.St.set, this]
  have ne10 : ∀ {d : BitVec 4}, d ≠ 10 → d.toNat ≠ 10 := by
    intro d h1 h2; exact h1 (BitVec.eq_of_toNat_eq (by rw [h2]; rfl))
  cases i with
  | alu w op d src =>
    simp only [planI] at hp
    cases he
    by_cases hop : op = .mov
    · subst hop
      rw [if_pos rfl] at hp
      cases hp
      obtain ⟨hd10, hmov⟩ := hcl
      cases ht with
      | @mov _ _ _ v h1 h2 =>
        refine ⟨τ, .inl ⟨rfl, rfl⟩, ⟨?_, hr.mem, hr.trace⟩, fun _ _ => rfl⟩
        intro r u hu
        unfold wr upd at hu
        rw [if_neg (ne10 hd10)] at hu
        simp only [Bpf.St.set]
        split at hu
        · rename_i e
          cases hu
          rw [hr.opd h1, if_pos e, opdVal_opd, alu_mov]
          rcases hmov with rfl | ⟨i, rfl, hi⟩
          · rfl
          · cases w
            · simp only [Src.val, zext_sext hi]
              congr 1
              ext k hk
              simp
            · rfl
        · rename_i e
          rw [if_neg e]; exact hr.reg r u hu
    · rw [if_neg hop] at hp
      cases hp
      have hd10 : d ≠ 10 := by cases op <;> first | exact hcl | exact absurd rfl hop
      cases ht with
      | @emit _ _ _ _ _ av vs x h1 h2 h3 h4 =>
        obtain ⟨v0, vs', h5, h6, rfl⟩ := rdOpds_cons.1 h2
        obtain ⟨v1, vs'', h7, h8, rfl⟩ := rdOpds_cons.1 h6
        cases h8
        have e0 := hr.opd h5
        have e1 := hr.opd h7
        rw [opdVal_opd] at e1
        refine ⟨τ.set x (alu w op (σ.reg d.toNat) (src.val σ)), .inr ⟨x, rfl, ?_, ?_⟩, hr.write (hf x (by simp)) (ne10 hd10), hset _ _⟩
        · rw [h3]; cases op <;> first | exact absurd rfl hop | exact ⟨by simp [irAlu], rfl, by simp [irAlu], by simp [irAlu], by simp [irAlu]⟩
        · rw [h3]; exact exec_alu hop rfl rfl rfl e0 e1
  | neg w d =>
    simp only [planI] at hp
    cases hp; cases he
    cases ht with
    | @emit _ _ _ _ _ av vs x h1 h2 h3 h4 =>
      obtain ⟨v0, vs', h5, h6, rfl⟩ := rdOpds_cons.1 h2
      cases h6
      have e0 := hr.opd h5
      refine ⟨τ.set x (negate w (σ.reg d.toNat)), .inr ⟨x, rfl, ?_, ?_⟩, hr.write (hf x (by simp)) (ne10 hcl), hset _ _⟩
      · rw [h3]; simp [Straight, Norm.Op.condJmp]
      · rw [h3]; simp [IR.exec, e0, width_ty, opdVal]
  | swap be d wd =>
    simp only [planI] at hp
    cases hp
    simp only [effect, execInstr, Option.map_eq_some_iff] at he
    obtain ⟨z, hz, rfl⟩ := he
    cases ht with
    | @emit _ _ _ _ _ av vs x h1 h2 h3 h4 =>
      obtain ⟨v0, vs', h5, h6, rfl⟩ := rdOpds_cons.1 h2
      cases h6
      have e0 := hr.opd h5
      refine ⟨τ.set x z, .inr ⟨x, rfl, ?_, ?_⟩, hr.write (hf x (by simp)) (ne10 hcl), hset _ _⟩
      · rw [h3]; cases be <;> simp [Straight, Norm.Op.condJmp]
      · rw [h3]; cases be <;> simp [IR.exec, e0, opdVal, hz]
  | ldimm d k =>
    simp only [planI] at hp
    split at hp
    · cases hp; cases he
      cases ht with
      | @emit _ _ _ _ _ av vs x h1 h2 h3 h4 =>
        cases h2
        refine ⟨τ.set x (if k = 0 then q.imm64 else W.ldimm k.toNat q.imm64), .inr ⟨x, rfl, ?_, ?_⟩,
          hr.write (hf x (by simp)) (ne10 hcl), hset _ _⟩
        · rw [h3]; simp [Straight, Norm.Op.condJmp]
        · rw [h3]
          have : k.toNat = 0 ↔ k = 0 := by
            constructor
            · intro e; exact BitVec.eq_of_toNat_eq (by rw [e]; rfl)
            · intro e; rw [e]; rfl
          simp [IR.exec, hW.ldimm, this]
    · simp at hp
  | ldx sx sz d s off =>
    simp only [planI] at hp
    obtain ⟨hd10, rfl⟩ := hcl
    cases hp; cases he
    cases ht with
    | @emit _ _ _ _ _ av vs x h1 h2 h3 h4 =>
      cases h2
      have e0 := hr.reg _ _ h1
      refine ⟨τ.set x (Bpf.load sz.bytes σ.mem (σ.reg s.toNat + off.signExtend 64)), .inr ⟨x, rfl, ?_, ?_⟩,
        hr.write (hf x (by simp)) (ne10 hd10), hset _ _⟩
      · rw [h3]; simp [Straight, Norm.Op.condJmp]
      · rw [h3]; simp [IR.exec, e0, bytes_szTy, hr.mem]
  | st sz d off imm =>
    simp only [planI] at hp
    cases hp; cases he
    cases ht with
    | @emit _ _ _ _ _ av vs x h1 h2 h3 h4 =>
      obtain ⟨v0, vs', h5, h6, rfl⟩ := rdOpds_cons.1 h2
      cases h6
      have e0 := hr.opd h5
      have e1 := hr.reg _ _ h1
      refine ⟨{ τ with mem := Bpf.store sz.bytes τ.mem (σ.reg d.toNat + off.signExtend 64) (imm.signExtend 64) }, .inr ⟨x, rfl, ?_, ?_⟩,
        ⟨fun r v hv => ?_, by simp only [hr.mem], hr.trace⟩, fun _ _ => rfl⟩
      · rw [h3]; simp [Straight, Norm.Op.condJmp]
      · rw [h3]; simp [IR.exec, e0, e1, bytes_szTy, opdVal]
      · have := hr.reg r v hv
        cases v <;> exact this
  | stx sz d s off =>
    simp only [planI] at hp
    cases hp; cases he
    cases ht with
    | @emit _ _ _ _ _ av vs x h1 h2 h3 h4 =>
      obtain ⟨v0, vs', h5, h6, rfl⟩ := rdOpds_cons.1 h2
      cases h6
      have e0 := hr.opd h5
      have e1 := hr.reg _ _ h1
      refine ⟨{ τ with mem := Bpf.store sz.bytes τ.mem (σ.reg d.toNat + off.signExtend 64) (σ.reg s.toNat) }, .inr ⟨x, rfl, ?_, ?_⟩,
        ⟨fun r v hv => ?_, by simp only [hr.mem], hr.trace⟩, fun _ _ => rfl⟩
      · rw [h3]; simp [Straight, Norm.Op.condJmp]
      · rw [h3]; simp [IR.exec, e0, e1, bytes_szTy, opdVal]
      · have := hr.reg r v hv
        cases v <;> exact this
  | call fid =>
    simp only [planI] at hp
    obtain ⟨hs0, rfl⟩ := hsrc fid rfl
    obtain ⟨rfl, har⟩ := planCall_ok hp hs0 hcl
    cases he
    cases ht with
    | @emit _ _ _ _ _ av vs x h1 h2 h3 h4 =>
      have e0 := hr.opds h2
      rw [args_take σ _ har] at e0
      have hlen : σ.args.length = 5 := rfl
      refine ⟨{ (τ.set x (W.call σ.trace q.slot.imm σ.args σ.mem).ret) with
          mem := (W.call σ.trace q.slot.imm σ.args σ.mem).mem
          trace := τ.trace ++ [⟨q.slot.imm, σ.args.take (arity q.slot.imm)⟩] }, .inr ⟨x, rfl, ?_, ?_⟩, ⟨?_, rfl, ?_⟩, fun y hy => hset _ _ y hy⟩
      · rw [h3]; simp [Straight, Norm.Op.condJmp]
      · rw [h3]
        simp [IR.exec, e0, hr.mem, hr.trace, hW.ret _ _ _ _ hlen, hW.mem _ _ _ _ hlen]
      · intro r v hv
        have hev : ∀ v, eval ({ (τ.set x (W.call σ.trace q.slot.imm σ.args σ.mem).ret) with
          mem := (W.call σ.trace q.slot.imm σ.args σ.mem).mem
          trace := τ.trace ++ [⟨q.slot.imm, σ.args.take (arity q.slot.imm)⟩] } : IR.St) v =
            eval (τ.set x (W.call σ.trace q.slot.imm σ.args σ.mem).ret) v := by
          intro v; cases v <;> rfl
        rw [hev]
        unfold wrO wr at hv
        dsimp only at hv
        rw [if_neg (by decide)] at hv
        unfold upd at hv
        simp only [doCall]
        split at hv
        · rename_i e; cases hv; subst e; simp [eval, IR.St.set]
        · rename_i e
          rw [if_neg e, eval_set (by intro e2; exact hf x (by simp) r (by rw [hv, e2])), hr.reg r v hv]
          split
          · rename_i h15
            have := hW.clob σ.trace q.slot.imm σ.args σ.mem r hlen h15.1 h15.2
            rw [← this]
            have : r = 1 ∨ r = 2 ∨ r = 3 ∨ r = 4 ∨ r = 5 := by omega
            rcases this with rfl | rfl | rfl | rfl | rfl <;> rfl
          · rfl
      · simp [doCall, hr.trace, cutEv]
  | ja off => exact Bool.noConfusion hctl
  | jcc w c d src off => exact Bool.noConfusion hctl
  | exit => exact Bool.noConfusion hctl

end Verif.Lift
