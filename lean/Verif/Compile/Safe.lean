import Verif.Compile.ColorSafe
import Verif.Compile.PlaceSafe
import Verif.Compile.Props
/-!
# Code generation does not crash
-/
namespace Verif.Compile
open Verif Verif.IR Verif.Edit Verif.Cg
open Verif.Lower (Ready Neat)
open Verif.Norm (VrPos Reg Op)

theorem compile_safe {L : Bool × Bool} {f : Fn} {R : List Nat} {d : BitVec 16} (hr : Ready f R) (hn : Neat f R) (hF : Fits f R d)
    (ha : ∀ b ∈ R, ∀ x ∈ f.body b, (f.insn x).op = .allocarray → 0 < arrBytes (f.insn x) ∧ arrBytes (f.insn x) + 7 < 2 ^ 32)
    (ht : Tight (fun y => Live f y ∨ f.next ≤ y) f) (hself : NoSelf f R) (hs : ∀ x, InR f R x → Sturdy L (f.insn x)) (hm : ∀ b, b ∈ R ↔ b ∈ f.allBbs) (hg : Graph f)
    (hst : Steps f R) : Safe (compile f R) := by
  obtain ⟨s, off, e, -⟩ := C54_front_partial hr hn ha
  have hH := prepare_holds hr hn hF ha e
  have hFr := prepare_frame hr hn hF ha e
  have hSo := prepare_solid hr hn hF ha e ht hself hs
  have hLo := prepare_loose hr hn hF ha e
  obtain ⟨k1, k2⟩ := allocate_safe hr.nodup hm hg hst 6 s off hH hSo hLo hFr
  unfold compile
  rw [e, Out.ok_bind]
  refine k1.bind fun al e1 => ?_
  obtain ⟨hSo', hLo'⟩ := k2 al e1
  have hRo := allocate_ok hr.nodup 6 s off al hH e1
  have hFr' := hFr.trans hRo.frame
  have hg' := hFr'.graph hg
  obtain ⟨k3, k4⟩ := color_safe hRo hg' hSo' hLo' (fun b hb => (hm b).2 (by rw [← hFr'.allBbs]; exact hb)) (falling_of hFr' hst hr.nodup hm hg)
  refine k3.bind fun c e2 => ?_
  obtain ⟨m, e3⟩ := k4 c e2
  rw [e3, Out.ok_bind]
  obtain ⟨hse, -⟩ := seated_of hRo (hFr.graph hg) e2 e3 (notFixed_of hRo.holds hLo')
  obtain ⟨t, bs, e4, e5, k5, -⟩ := hRo.holds.back_safe (d := BitVec.ofInt 16 al.off) hr.nodup hse (regsAre (f := f) hFr'.sp) hSo'.sturdy
  dsimp only
  rw [e4, Out.ok_bind, e5, Out.ok_bind]
  exact k5.bind fun code _ => .inr ⟨_, rfl⟩

/-! ## Builtin constants -/

/-- `bpf_ir_compile` after its passes and `bpf_ir_cg_norm`, with the replacement of builtin constants; `C` are the blocks that are marked as having a counter. -/
def compileB (C : Nat → Bool) (f : Fn) (R : List Nat) : Out Result := do
  let p ← prepare f R
  let al ← allocate R (rgOf f) 6 p.1 p.2
  let c ← RA.coloring al.ra
  let m ← RA.coalescing (copiesOf al.s.f R) c
  let g := Stack.shift (BitVec.ofInt 16 al.off) al.s.f
  let t ← RemPhi.removePhi (regInsn f) (dst g) R ⟨g, regPos m⟩
  let bs ← Flatten.flatten t.f (dst t.f) t.pos R
  let code ← Emit.emitB t.f.preds C bs
  .ok ⟨al, c, m, t, bs, code⟩

/-- The blocks that are handed to emission have no builtin constants. -/
theorem blocks_bare {L : Bool × Bool} {f : Fn} {R : List Nat} {d : BitVec 16} (hr : Ready f R) (hn : Neat f R) (hF : Fits f R d)
    (ha : ∀ b ∈ R, ∀ x ∈ f.body b, (f.insn x).op = .allocarray → 0 < arrBytes (f.insn x) ∧ arrBytes (f.insn x) + 7 < 2 ^ 32)
    (ht : Tight (fun y => Live f y ∨ f.next ≤ y) f) (hself : NoSelf f R) (hs : ∀ x, InR f R x → Sturdy L (f.insn x)) (hm : ∀ b, b ∈ R ↔ b ∈ f.allBbs) (hg : Graph f)
    (hst : Steps f R) {s : Cg} {off : Int} (e : prepare f R = .ok (s, off)) {al : Allocated} (e1 : allocate R (rgOf f) 6 s off = .ok al) {c m : RA.St} (e2 : RA.coloring al.ra = .ok c)
    (e3 : RA.coalescing (copiesOf al.s.f R) c = .ok m) {t : Cg}
    (e4 : RemPhi.removePhi (regInsn f) (dst (Stack.shift (BitVec.ofInt 16 al.off) al.s.f)) R ⟨Stack.shift (BitVec.ofInt 16 al.off) al.s.f, regPos m⟩ = .ok t) {bs : List Flat.Block}
    (e5 : Flatten.flatten t.f (dst t.f) t.pos R = .ok bs) : ∀ b ∈ bs, ∀ i ∈ b.insns, Emit.BareI i ∧ Spared (L.1, true) i := by
  have hH := prepare_holds hr hn hF ha e
  have hFr := prepare_frame hr hn hF ha e
  have hSo := prepare_solid hr hn hF ha e ht hself hs
  have hLo := prepare_loose hr hn hF ha e
  obtain ⟨k1, k2⟩ := allocate_safe hr.nodup hm hg hst 6 s off hH hSo hLo hFr
  obtain ⟨hSo', hLo'⟩ := k2 al e1
  have hRo := allocate_ok hr.nodup 6 s off al hH e1
  have hFr' := hFr.trans hRo.frame
  obtain ⟨hse, -⟩ := seated_of hRo (hFr.graph hg) e2 e3 (notFixed_of hRo.holds hLo')
  obtain ⟨t', bs', e4', e5', -, k5⟩ := hRo.holds.back_safe (d := BitVec.ofInt 16 al.off) hr.nodup hse (regsAre (f := f) hFr'.sp) hSo'.sturdy
  rw [e4] at e4'
  cases e4'
  rw [e5] at e5'
  cases e5'
  exact k5

/-- Replacing builtin constants changes nothing. -/
theorem compileB_iff {L : Bool × Bool} {f : Fn} {R : List Nat} {d : BitVec 16} (hr : Ready f R) (hn : Neat f R) (hF : Fits f R d)
    (ha : ∀ b ∈ R, ∀ x ∈ f.body b, (f.insn x).op = .allocarray → 0 < arrBytes (f.insn x) ∧ arrBytes (f.insn x) + 7 < 2 ^ 32)
    (ht : Tight (fun y => Live f y ∨ f.next ≤ y) f) (hself : NoSelf f R) (hs : ∀ x, InR f R x → Sturdy L (f.insn x)) (hm : ∀ b, b ∈ R ↔ b ∈ f.allBbs) (hg : Graph f)
    (hst : Steps f R) (C : Nat → Bool) (r : Result) : compileB C f R = .ok r ↔ compile f R = .ok r := by
  unfold compileB compile
  constructor <;> intro h
  all_goals
    obtain ⟨⟨s, off⟩, e, h⟩ := Out.bind_eq_ok.1 h
    obtain ⟨al, e1, h⟩ := Out.bind_eq_ok.1 h
    obtain ⟨c, e2, h⟩ := Out.bind_eq_ok.1 h
    obtain ⟨m, e3, h⟩ := Out.bind_eq_ok.1 h
    dsimp only at h
    obtain ⟨t, e4, h⟩ := Out.bind_eq_ok.1 h
    obtain ⟨bs, e5, h⟩ := Out.bind_eq_ok.1 h
    obtain ⟨code, e6, h⟩ := Out.bind_eq_ok.1 h
    have hb := blocks_bare hr hn hF ha ht hself hs hm hg hst e e1 e2 e3 e4 e5
    rw [e, Out.ok_bind, e1, Out.ok_bind, e2, Out.ok_bind, e3, Out.ok_bind]
    dsimp only
    rw [e4, Out.ok_bind, e5, Out.ok_bind]
  · rw [(Emit.emitB_iff fun b h1 i h2 => (hb b h1 i h2).1).1 e6, Out.ok_bind]; exact h
  · rw [(Emit.emitB_iff fun b h1 i h2 => (hb b h1 i h2).1).2 e6, Out.ok_bind]; exact h

end Verif.Compile
