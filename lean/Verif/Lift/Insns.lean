import Verif.Lift.Flow
import Verif.Spec.WellFormed
import Verif.Spec.Lower
/-!
# The instructions of a lifted function
-/
namespace Verif.Lift
open Verif Verif.Bpf Verif.IR Verif.GenBB
open Verif.Lower (void)
open Verif.Edit (raw)
set_option linter.unusedSimpArgs false
set_option linter.unusedVariables false

variable {P : List Slot} {C : List Blk} {g : Gh} {s : LSt}

/-- What `transform_bb` fills in, before the operands are read. -/
structure Templ (i : Instr) (j : Insn) (a : Option Nat) (os : List Opd) (d : Option Nat) : Prop where
  raw : a.isSome = raw j.op
  addr : j.addr = .undef
  phi : j.phi = []
  op : j.op ≠ .phi
  res : d.isSome = true → void j.op = false
  count : ∀ n, IR.arity j.op = some n → os.length = n
  width : j.op.binAlu = true ∨ j.op.condJmp = true → j.aluOp = .w32 ∨ j.aluOp = .w64
  size : j.op = .loadraw ∨ j.op = .storeraw → j.vrType ≠ .unknown
  swap : j.op = .htobe ∨ j.op = .htole → ∃ be dd, i = .swap be dd j.aux
  call : j.op = .call → i = .call j.aux ∧ (j.aux ≠ 6 → os.length = Lift.arity j.aux ∧ Lift.arity j.aux ≤ 5)
  imm : j.op = .loadimm → j.immKind ≤ 6 ∧ os = []

theorem ty_ok (w : Bool) : ty w = .w32 ∨ ty w = .w64 := by cases w; exact .inl rfl; exact .inr rfl

theorem szTy_ok (z : Size) : szTy z ≠ .unknown := by cases z <;> simp [szTy]

theorem planI_templ {defd : Nat → Bool} {q : PreInsn} {i : Instr} {j : Insn} {a : Option Nat} {os : List Opd} {d : Option Nat}
    (hsrc : ∀ f, i = .call f → q.slot.src = 0 ∧ f = q.slot.imm) (hp : planI C defd q i = .ok (.emit j a os d)) : Templ i j a os d := by
  cases i with
  | alu w op dd src =>
    simp only [planI] at hp
    split at hp
    · cases hp
    · rename_i hm
      cases hp
      cases op <;> first | exact absurd rfl hm | exact ⟨rfl, rfl, rfl, by simp [irAlu], fun _ => rfl, fun n h => (by simpa [IR.arity, irAlu] using h), fun _ => ty_ok w, by simp [irAlu], by simp [irAlu], by simp [irAlu], by simp [irAlu]⟩
  | neg w dd =>
    simp only [planI] at hp; cases hp
    exact ⟨rfl, rfl, rfl, by simp, fun _ => rfl, fun n h => by simpa [IR.arity] using h, by simp [Norm.Op.binAlu, Norm.Op.condJmp], by simp, by simp, by simp, by simp⟩
  | swap be dd wd =>
    simp only [planI] at hp; cases hp
    cases be <;> exact ⟨rfl, rfl, rfl, by simp, fun _ => rfl, fun n h => by simpa [IR.arity] using h, by simp [Norm.Op.binAlu, Norm.Op.condJmp], by simp, fun _ => ⟨_, _, rfl⟩, by simp, by simp⟩
  | ldimm dd k =>
    simp only [planI] at hp; split at hp <;> cases hp
    rename_i hk
    exact ⟨rfl, rfl, rfl, by simp, fun _ => rfl, fun n h => by simp [IR.arity] at h, by simp [Norm.Op.binAlu, Norm.Op.condJmp], by simp, by simp, by simp, fun _ => ⟨hk, rfl⟩⟩
  | ldx sx sz dd s off =>
    simp only [planI] at hp; cases hp
    exact ⟨rfl, rfl, rfl, by simp, fun _ => rfl, fun n h => by simpa [IR.arity] using h, by simp [Norm.Op.binAlu, Norm.Op.condJmp], fun _ => szTy_ok sz, by simp, by simp, by simp⟩
  | st sz dd off imm =>
    simp only [planI] at hp; cases hp
    exact ⟨rfl, rfl, rfl, by simp, by simp, fun n h => by simpa [IR.arity] using h, by simp [Norm.Op.binAlu, Norm.Op.condJmp], fun _ => szTy_ok sz, by simp, by simp, by simp⟩
  | stx sz dd s off =>
    simp only [planI] at hp; cases hp
    exact ⟨rfl, rfl, rfl, by simp, by simp, fun n h => by simpa [IR.arity] using h, by simp [Norm.Op.binAlu, Norm.Op.condJmp], fun _ => szTy_ok sz, by simp, by simp, by simp⟩
  | call fid =>
    simp only [planI] at hp
    obtain ⟨h0, rfl⟩ := hsrc fid rfl
    by_cases h6 : q.slot.imm = 6
    · unfold planCall at hp
      rw [h0] at hp
      simp only [show (0 : BitVec 4) ≠ 1 by decide, show (0 : BitVec 4) ≠ 2 by decide, show (0 : BitVec 4) ≠ 6 by decide, if_false] at hp
      repeat' split at hp
      all_goals first | (cases hp; exact ⟨rfl, rfl, rfl, by simp, fun _ => rfl, fun n h => by simp [IR.arity] at h, by simp [Norm.Op.binAlu, Norm.Op.condJmp], by simp, by simp, fun _ => ⟨rfl, fun h => absurd h6 h⟩, by simp⟩) | cases hp
    · obtain ⟨h1, h2⟩ := planCall_ok hp h0 h6
      cases h1
      exact ⟨rfl, rfl, rfl, by simp, fun _ => rfl, fun n h => by simp [IR.arity] at h, by simp [Norm.Op.binAlu, Norm.Op.condJmp], by simp, by simp, fun _ => ⟨rfl, fun _ => ⟨by simp [argOpds], h2⟩⟩, by simp⟩
  | ja off =>
    simp only [planI] at hp
    obtain ⟨t, ht, hp⟩ := Out.bind_eq_ok.1 hp
    cases hp
    exact ⟨rfl, rfl, rfl, by simp, by simp, fun n h => by simpa [IR.arity] using h, by simp [Norm.Op.binAlu, Norm.Op.condJmp], by simp, by simp, by simp, by simp⟩
  | jcc w c dd src off =>
    simp only [planI] at hp
    cases hc2 : irCond c with
    | none => rw [hc2] at hp; cases hp
    | some o =>
      rw [hc2] at hp
      dsimp only at hp
      obtain ⟨t1, hb1, hp⟩ := Out.bind_eq_ok.1 hp
      obtain ⟨t2, hb2, hp⟩ := Out.bind_eq_ok.1 hp
      cases hp
      cases c <;> simp only [irCond] at hc2 <;> cases hc2 <;>
        exact ⟨rfl, rfl, rfl, by simp, by simp, fun n h => (by simpa [IR.arity] using h), fun _ => ty_ok w, by simp, by simp, by simp, by simp⟩
  | exit =>
    simp only [planI] at hp
    cases hp
    exact ⟨rfl, rfl, rfl, by simp, by simp, fun n h => by simpa [IR.arity] using h, by simp [Norm.Op.binAlu, Norm.Op.condJmp], by simp, by simp, by simp, by simp⟩

/-- A constant, the stack pointer, an argument or the result of an instruction that has one. -/
def NiceV (ins : Nat → Insn) (v : Val) : Prop := (∃ c : BitVec 32, v = .const .plain (c.signExtend 64) .w32 .none) ∨ ∃ y, v = .insn y ∧ (y < 6 ∨ void (ins y).op = false)

theorem rdOpds_nice {ins : Nat → Insn} {m : M} (hm : ∀ r v, m r = some v → NiceV ins v) {os : List Opd} {vs : List Val} (h : rdOpds m os = some vs) :
    vs.length = os.length ∧ ∀ v ∈ vs, NiceV ins v := by
  induction os generalizing vs with
  | nil => cases h; simp
  | cons o os ih =>
    obtain ⟨w, ws, h1, h2, rfl⟩ := rdOpds_cons.1 h
    obtain ⟨e1, e2⟩ := ih h2
    refine ⟨by simp [e1], fun v hv => ?_⟩
    rcases List.mem_cons.1 hv with rfl | hv
    · cases o with
      | imm i => cases h1; exact .inl ⟨_, rfl⟩
      | reg r => exact hm r _ h1
    · exact e2 v hv

/-- An instruction made from a template. -/
def Made (ins : Nat → Insn) (q : PreInsn) (x : Nat) : Prop :=
  ∃ i j a os d av vs, decode q.slot = some i ∧ Templ i j a os d ∧ ins x = { j with addr := av, vals := vs } ∧ vs.length = os.length ∧ (∀ v ∈ vs, NiceV ins v) ∧
    (a = none → av = .undef) ∧ (a ≠ none → NiceV ins av)

theorem wr_nice {ins : Nat → Insn} {m : M} (hm : ∀ r v, m r = some v → NiceV ins v) {d : Nat} {w : Val} (hw : NiceV ins w) : ∀ r v, wr m d w r = some v → NiceV ins v := by
  intro r v hv
  unfold wr at hv
  split at hv
  · exact hm r v hv
  · unfold upd at hv
    split at hv
    · cases hv; exact hw
    · exact hm r v hv

theorem tr_made {ins : Nat → Insn} {qs : List PreInsn} {as : List Act} {m m1 : M} {xs : List Nat} (hp : Planned C qs as) : Tr ins as m xs m1 →
    (∀ q ∈ qs, ∃ i, decode q.slot = some i) → (∀ r v, m r = some v → NiceV ins v) → (∀ r v, m1 r = some v → NiceV ins v) ∧ ∀ x ∈ xs, ∃ q ∈ qs, Made ins q x := by
  induction hp generalizing m xs with
  | nil => intro h _ hm; cases h; exact ⟨hm, by simp⟩
  | @cons q qs a as defd hpl _ hps ih =>
    intro h hd hm
    obtain ⟨i, hi⟩ := hd q (by simp)
    rw [plan_decode C defd q hi] at hpl
    cases h with
    | @cons _ _ _ xs m1 ys m2 h0 h1 =>
      have step : (∀ r v, m1 r = some v → NiceV ins v) ∧ ∀ x ∈ xs, Made ins q x := by
        cases h0 with
        | @mov d o m v e1 e2 =>
          refine ⟨wr_nice hm ?_, by simp⟩
          cases o with
          | imm i => cases e1; exact .inl ⟨_, rfl⟩
          | reg r => exact hm r _ e1
        | @emit j a os d m av vs x e1 e2 e3 e4 =>
          have ht := planI_templ (fun f e => by subst e; exact decode_call hi) hpl
          obtain ⟨f1, f2⟩ := rdOpds_nice hm e2
          refine ⟨?_, fun y hy => ?_⟩
          · cases d with
            | none => exact hm
            | some d => exact wr_nice hm (.inr ⟨x, rfl, .inr (by rw [e3]; exact ht.res rfl)⟩)
          · rw [List.mem_singleton] at hy; subst hy
            refine ⟨i, j, a, os, d, av, vs, hi, ht, e3, f1, f2, ?_, ?_⟩
            · rintro rfl
              simp only [rdAddr] at e1
              cases e1; exact ht.addr
            · intro ha
              cases a with
              | none => exact absurd rfl ha
              | some r => exact hm r av e1
      obtain ⟨a1, a2⟩ := ih h1 (fun q hq => hd q (by simp [hq])) step.1
      refine ⟨a1, fun x hx => ?_⟩
      rcases List.mem_append.1 hx with hx | hx
      · exact ⟨q, by simp, step.2 x hx⟩
      · obtain ⟨q', hq', h'⟩ := a2 x hx
        exact ⟨q', by simp [hq'], h'⟩

section
variable (h : Lifted P C g s)
include h

theorem Lifted.made_at {b : Nat} (hb : Reach C b) : (∀ r v, g.start b r = some v → NiceV s.insn v) → (∀ r v, look s b r = some v → NiceV s.insn v) ∧
    ∀ x ∈ g.code b, ∃ q ∈ insnsOf C b, Made s.insn q x :=
  tr_made (h.fin.gi.fil b (h.fin.filled hb)) (h.fin.gi.inv.tr b) (h.fin.dec b)

theorem Lifted.nice {b : Nat} (hb : Reach C b) : ∀ r v, g.start b r = some v → NiceV s.insn v := by
  obtain ⟨n, hn⟩ := hb
  induction hn with
  | zero =>
    intro r v hv
    cases h.fin.gi.inv.just _ r _ hv with
    | sp h1 h2 => exact .inr ⟨0, h2, .inl (by omega)⟩
    | arg h1 h2 h3 h4 => exact .inr ⟨r, h4, .inl (by omega)⟩
    | copy p h1 => exact absurd rfl h1
    | phi x h1 => exact absurd rfl h1
  | @succ c b n hc hm ih =>
    intro r v hv
    cases h.fin.gi.inv.just _ r _ hv with
    | sp h1 h2 => exact .inr ⟨0, h2, .inl (by omega)⟩
    | arg h1 h2 h3 h4 => exact .inr ⟨r, h4, .inl (by omega)⟩
    | phi x h1 h2 h3 h4 h5 => exact .inr ⟨x, h3, .inr (by rw [h5]; rfl)⟩
    | copy p h1 h2 h3 h4 h5 =>
      have hp : c ∈ predsOf C b := (h.fin.edge c b).2 hm
      rw [h4, List.mem_singleton] at hp
      subst hp
      exact (h.made_at ⟨n, hc⟩ ih).1 r v h5

theorem Lifted.nice_look {b : Nat} (hb : Reach C b) : ∀ r v, look s b r = some v → NiceV s.insn v := (h.made_at hb (h.nice hb)).1

theorem Lifted.made {b : Nat} (hb : Reach C b) : ∀ x ∈ g.code b, ∃ q ∈ insnsOf C b, Made s.insn q x := (h.made_at hb (h.nice hb)).2

end
end Verif.Lift
