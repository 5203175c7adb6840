import Verif.Compile.Safe
import Verif.Compile.Legal
/-!
# The blocks that code generation hands to emission
-/
namespace Verif.Compile
open Verif Verif.IR Verif.Edit Verif.Cg Verif.Flatten
open Verif.Lower (Ready Neat)
open Verif.Norm (VrPos Reg Op FInsn)
open Verif.Loc (Flow)

theorem flatInsns_snoc {f : Fn} {dst : Nat → Option Nat} {ps : Nat → VrPos} {x : Nat} : ∀ {pre : List Nat} {is : List FInsn}, flatInsns f dst ps (pre ++ [x]) = .ok is →
    ∃ A i, is = A ++ [i] ∧ i.op = (f.insn x).op
  | [], is, h => by
    rw [List.nil_append, flatInsns] at h
    obtain ⟨i, h1, h⟩ := Out.bind_eq_ok.1 h
    rw [flatInsns, Out.ok_bind] at h
    cases h
    refine ⟨[], i, rfl, ?_⟩
    unfold flatInsn at h1
    dsimp only at h1
    obtain ⟨t, -, h1⟩ := Out.bind_eq_ok.1 h1
    obtain ⟨vs, -, h1⟩ := Out.bind_eq_ok.1 h1
    obtain ⟨a, -, h1⟩ := Out.bind_eq_ok.1 h1
    cases h1
    rfl
  | y :: pre, is, h => by
    rw [List.cons_append, flatInsns] at h
    obtain ⟨i, -, h⟩ := Out.bind_eq_ok.1 h
    obtain ⟨r, h2, h⟩ := Out.bind_eq_ok.1 h
    cases h
    obtain ⟨A, j, rfl, e⟩ := flatInsns_snoc h2
    exact ⟨i :: A, j, rfl, e⟩

theorem flatten_snoc {f : Fn} {dst : Nat → Option Nat} {ps : Nat → VrPos} {c : Nat} : ∀ {A : List Nat} {bs : List Flat.Block}, flatten f dst ps (A ++ [c]) = .ok bs →
    ∃ A' is, bs = A' ++ [⟨c, is⟩] ∧ flatInsns f dst ps (f.body c) = .ok is
  | [], bs, h => by
    rw [List.nil_append, flatten] at h
    obtain ⟨is, h1, h⟩ := Out.bind_eq_ok.1 h
    rw [flatten, Out.ok_bind] at h
    cases h
    exact ⟨[], is, rfl, h1⟩
  | y :: A, bs, h => by
    rw [List.cons_append, flatten] at h
    obtain ⟨is, -, h⟩ := Out.bind_eq_ok.1 h
    obtain ⟨r, h2, h⟩ := Out.bind_eq_ok.1 h
    cases h
    obtain ⟨A', js, rfl, e⟩ := flatten_snoc h2
    exact ⟨⟨y, is⟩ :: A', js, rfl, e⟩

/-- The function that is flattened has the jumps and returns of the one that is compiled; what is flattened is handed to emission. -/
theorem compile_parts {l : Bool} {f : Fn} {R : List Nat} {d : BitVec 16} (hr : Ready f R) (hn : Neat f R) (hF : Fits f R d)
    (ha : ∀ b ∈ R, ∀ x ∈ f.body b, (f.insn x).op = .allocarray → 0 < arrBytes (f.insn x) ∧ arrBytes (f.insn x) + 7 < 2 ^ 32)
    (ht : Tight (fun y => Live f y ∨ f.next ≤ y) f) (hself : NoSelf f R) (hs : ∀ x, InR f R x → Sturdy (l, false) (f.insn x)) (hm : ∀ b, b ∈ R ↔ b ∈ f.allBbs) (hg : Graph f)
    (hst : Steps f R) {r : Result} (e : compile f R = .ok r) :
    ∃ g to ps, Flow g R ∧ SameJumps R f g ∧ flatten g to ps R = .ok r.blocks ∧ (∀ b ∈ r.blocks, ∀ i ∈ b.insns, Spared (l, true) i) ∧ Emit.emit r.blocks = .ok r.code := by
  unfold compile at e
  obtain ⟨⟨s0, off0⟩, e1, e⟩ := Out.bind_eq_ok.1 e
  obtain ⟨al, e2, e⟩ := Out.bind_eq_ok.1 e
  obtain ⟨c, e3, e⟩ := Out.bind_eq_ok.1 e
  obtain ⟨m, e4, e⟩ := Out.bind_eq_ok.1 e
  dsimp only at e
  obtain ⟨t, e5, e⟩ := Out.bind_eq_ok.1 e
  obtain ⟨bs, e6, e⟩ := Out.bind_eq_ok.1 e
  obtain ⟨code, e7, e⟩ := Out.bind_eq_ok.1 e
  cases e
  have hH := prepare_holds hr hn hF ha e1
  have hFr := prepare_frame hr hn hF ha e1
  have hSo := prepare_solid hr hn hF ha e1 ht hself hs
  have hLo := prepare_loose hr hn hF ha e1
  obtain ⟨k1, k2⟩ := allocate_safe hr.nodup hm hg hst 6 s0 off0 hH hSo hLo hFr
  obtain ⟨hSo', hLo'⟩ := k2 al e2
  have hRo := allocate_ok hr.nodup 6 s0 off0 al hH e2
  have hFr' := hFr.trans hRo.frame
  obtain ⟨hse, -⟩ := seated_of hRo (hFr.graph hg) e3 e4 (notFixed_of hRo.holds hLo')
  have hfl0 := flow_shift (BitVec.ofInt 16 al.off) hRo.holds.ready.flow
  have hG := hRo.holds.gone (d := BitVec.ofInt 16 al.off) hr.nodup hse (regsAre (f := f) hFr'.sp) e5
  refine ⟨t.f, _, _, inv_flow hG.inv hRo.holds.ready.sub hfl0, ?_, e6, fun b hb i hi => (blocks_bare hr hn hF ha ht hself hs hm hg hst e1 e2 e3 e4 e5 e6 b hb i hi).2, e7⟩
  refine hFr'.jumps.trans (SameJumps.trans ?_ (inv_jumps hG.inv hRo.holds.ready.sub hfl0))
  exact fun b hb => ⟨fun x hx _ => ⟨hx, Stack.shift_op _ al.s.f x⟩, fun x hx _ => ⟨hx, Stack.shift_op _ al.s.f x⟩⟩

/-- Loads that have computed addresses keep them, and the last block ends as it did. -/
theorem compile_shape {f : Fn} {R : List Nat} {d : BitVec 16} (hr : Ready f R) (hn : Neat f R) (hF : Fits f R d)
    (ha : ∀ b ∈ R, ∀ x ∈ f.body b, (f.insn x).op = .allocarray → 0 < arrBytes (f.insn x) ∧ arrBytes (f.insn x) + 7 < 2 ^ 32)
    (ht : Tight (fun y => Live f y ∨ f.next ≤ y) f) (hself : NoSelf f R) (hs : ∀ x, InR f R x → Sturdy (true, false) (f.insn x)) (hm : ∀ b, b ∈ R ↔ b ∈ f.allBbs) (hg : Graph f)
    (hst : Steps f R) {r : Result} (e : compile f R = .ok r) :
    (∀ b ∈ r.blocks, ∀ i ∈ b.insns, i.op = .loadraw → ∃ p, i.addr = .pos p) ∧
    ∀ A c pre x, R = A ++ [c] → f.body c = pre ++ [x] → (f.insn x).op = .ret ∨ (f.insn x).op = .ja → Ends r.blocks := by
  obtain ⟨g, to, ps, hfl, hj, e6, hsp, -⟩ := compile_parts hr hn hF ha ht hself hs hm hg hst e
  refine ⟨fun b hb i hi => (hsp b hb i hi).1 rfl, fun A k pre x hA hx ho => ?_⟩
  have hk : k ∈ R := by rw [hA]; simp
  obtain ⟨h1, h2⟩ := (hj k hk).1 x (by rw [hx]; simp) (by rcases ho with o | o <;> rw [o] <;> simp)
  have ho' : (g.insn x).op = .ret ∨ (g.insn x).op = .ja := by rw [h2.1]; exact ho
  obtain ⟨B, C, eb⟩ := List.append_of_mem h1
  have hC := hfl.last k hk B x C eb (by rcases ho' with o | o <;> rw [o] <;> rfl) (by rcases ho' with o | o <;> rw [o] <;> simp)
  rw [hC] at eb
  rw [hA] at e6
  obtain ⟨A', is, eA, ei⟩ := flatten_snoc e6
  rw [eb] at ei
  obtain ⟨X, i, ex, eo⟩ := flatInsns_snoc ei
  exact ⟨A', ⟨k, is⟩, X, i, eA, ex, by rw [eo]; exact ho'⟩

end Verif.Compile
