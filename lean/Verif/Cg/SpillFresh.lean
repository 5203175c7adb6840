import Verif.Cg.SpillFn
import Verif.Cg.Fresh
import Verif.Spec.Alloc
import Verif.Loc.Alloc
/-!
# Spilling does not make new values needed
-/
namespace Verif.Cg
open Verif Verif.IR Verif.Edit Verif.Loc
open Verif.Norm (VrPos)
open Verif.RemPhi (All2)

variable {f : Fn} {R : List Nat} {pos0 : Nat → VrPos} {v : Nat} {s : Cg} {H N M T : Nat → List Nat} {off : Int}

theorem writes_result {l : Nat → Nat} {x : Nat} {i : Insn} (h1 : hasResult i.op = true) (h2 : i.op ≠ .alloc) (h3 : i.op ≠ .phi) : writes l x i = [l x] := by
  obtain ⟨op, vals, phi, addr, addrOff, addrKind, aluOp, vrType, bb1, bb2, aux, immKind, imm64⟩ := i
  cases op <;> simp_all [writes, hasResult, Loc.control, Norm.Op.condJmp]

theorem SpInv.readsLoad (h : SpInv f pos0 ⟨true, 0, off - 8⟩ v (fun _ _ => False) s H N M T) (hp : PosOk pos0 off) {n m : Nat} (h1 : f.next + 2 ≤ n) (h2 : n < s.f.next) :
    virt m ∉ reads (places s.pos) (s.f.insn n) := by
  rw [h.loads n h1 h2]
  simp only [reads, theLoad, mkLoad, place, List.flatMap_cons, List.flatMap_nil, List.append_nil, List.mem_singleton]
  rw [h.placeA hp]
  unfold virt
  omega

theorem SpInv.writesLoad (h : SpInv f pos0 ⟨true, 0, off - 8⟩ v (fun _ _ => False) s H N M T) {n : Nat} (h1 : f.next + 2 ≤ n) (h2 : n < s.f.next) :
    virt n ∈ writes (places s.pos) n (s.f.insn n) := by
  rw [h.loads n h1 h2, writes_result (by rfl) (by simp [theLoad, mkLoad]) (by simp [theLoad, mkLoad]), h.placeN (by omega) h2]
  simp

/-- New virtual registers are written before they are read. -/
theorem SpInv.freshNew (h : SpInv f pos0 ⟨true, 0, off - 8⟩ v (fun _ _ => False) s H N M T) (hB : Base f R) (hv : Spills f v) (hp : PosOk pos0 off) {n : Nat} (hn : f.next ≤ n) :
    ¬ Loc.Needed s.f (places s.pos) (virt n) s.f.entry (s.f.body s.f.entry) := by
  have hvl : v < f.next := hB.tidy.lt v (.inr (.inr hv.inb))
  have readN : ∀ x, ∀ m ∈ N x, virt n ∉ reads (places s.pos) (s.f.insn m) := fun x m hm => h.readsLoad hp (h.newN x m hm).1 (h.newN x m hm).2
  have readT : ∀ x, ∀ m ∈ T x, virt n ∉ reads (places s.pos) (s.f.insn m) := fun x m hm => h.readsLoad hp (h.newT x m hm).1 (h.newT x m hm).2
  have readS : virt n ∉ reads (places s.pos) (s.f.insn (f.next + 1)) := by
    rw [h.insnS]
    simp only [reads, mkStore, place, List.tail_cons, List.flatMap_cons, List.flatMap_nil, List.append_nil, List.mem_singleton]
    intro e
    have := (places_virt e.symm).1
    omega
  have readH : ∀ b, ∀ m ∈ H b, virt n ∉ reads (places s.pos) (s.f.insn m) := by
    intro b m hm
    rcases h.heads b m hm with rfl | rfl
    · rw [h.insnA]; simp [reads, mkAlloc]
    · exact readS
  have opl : ∀ {b x y : Nat}, b ∈ f.allBbs → x ∈ f.body b → .insn y ∈ operands (f.insn x) → y < f.next := fun hb hx hy =>
    hB.tidy.lt _ (hB.tidy.closed _ _ (.inr (.inr ⟨_, hb, hx⟩)) (refs_pos.2 hy))
  have inb : ∀ {b x : Nat}, x ∈ codeOf f b → x ∈ f.body b := fun hx => by rw [← phisOf_append f _]; exact List.mem_append_right _ hx
  have inp : ∀ {b x : Nat}, x ∈ phisOf f b → x ∈ f.body b := fun hx => by rw [← phisOf_append f _]; exact List.mem_append_left _ hx
  have readX : ∀ b ∈ R, ∀ x ∈ codeOf f b, virt n ∈ reads (places s.pos) (s.f.insn x) → n ∈ N x := by
    intro b hb x hx hr
    rcases reads_refs hr with h1 | ⟨y, h1, h2⟩
    · have := virt_big n; omega
    have hy := (places_virt h1.symm).1
    subst hy
    rw [refs_pos] at h2
    rcases h.insn b (hB.sub b hb) x hx with e | ⟨m, hm, e⟩
    · rw [e] at h2
      have := opl (hB.sub b hb) (inb hx) h2
      omega
    · rw [e, operands_mapOps] at h2
      obtain ⟨w, hw, e2⟩ := List.mem_map.1 h2
      unfold sub at e2
      split at e2
      · rw [← Val.insn.inj e2]; exact hm
      · subst e2
        have := opl (hB.sub b hb) (inb hx) hw
        omega
  intro hneed
  have hent := hB.flow.entry
  have eb : s.f.body s.f.entry = codeOf s.f f.entry := by
    rw [h.grown.entry]
    conv => lhs; rw [← phisOf_append s.f f.entry, (h.code (hB.sub _ hent)).1, hB.entry0]
    rfl
  rw [eb, h.grown.entry] at hneed
  have key := needed_grown (f := f) (g := s.f) (k := places s.pos) (q := virt n) (R := R) (H := H) (N := N) (M := M) (T := T) hB.flow.succs h.grown.succs
    (fun b hb => h.code (hB.sub b hb)) (F := fun b xs => xs = [] ∧ ∃ A z, codeOf f b = A ++ [z] ∧ n ∈ N z) (fun b hb pre x xs ec hne => ?_) (fun b hb hne => ?_) hent hneed
  · obtain ⟨e1, A, z, e2, -⟩ := key.skip (readH _)
    rw [e1] at e2
    simp at e2
  · exfalso
    have hx : x ∈ codeOf f b := by rw [ec]; simp
    have h1 := needs_append hne
    by_cases hm : n ∈ N x
    · exact h1.written (readN x) n hm (h.writesLoad (h.newN x n hm).1 (h.newN x n hm).2)
    · have h2 := h1.skip (readN x)
      have h3 := needs.skip h2 (fun y hy => by
        rcases List.mem_cons.1 hy with rfl | hy
        · exact fun hr => hm (readX b hb y hx hr)
        · rw [h.aft] at hy
          split at hy
          · rw [List.mem_singleton.1 hy]; exact readS
          · simp at hy)
      obtain ⟨e1, A, z, e2, e3⟩ := h3
      subst e1
      rw [ec] at e2
      have := List.append_inj_right' e2 rfl
      have : x = z := by simpa using this
      exact hm (this ▸ e3)
  · refine ⟨rfl, ?_⟩
    by_cases hm : n ∈ T b
    · exact (hne.written (readT b) n hm (h.writesLoad (h.newT b n hm).1 (h.newT b n hm).2)).elim
    · obtain ⟨c, hc, h1 | ⟨-, h1⟩⟩ := hne.skip (readT b)
      · obtain ⟨x, hx, y, hy, e⟩ := h1
        have hy' := (places_virt e.symm).1
        subst hy'
        have hcb := hB.sub c (hB.flow.succs b hb c hc)
        obtain ⟨q, e1, e2⟩ := h.phi c hcb x hx
        rw [e1] at hy
        obtain ⟨o, ho, e3, e4 | ⟨-, m, e4, -, e5⟩⟩ := all2_right e2 hy
        · have := opl (y := y) hcb (inp hx) (by
            unfold operands
            simp only [phisOf_phi hx, if_true, List.mem_append, List.mem_map]
            exact .inl (.inr ⟨o, ho, e4.symm⟩))
          omega
        · have := Val.insn.inj e4
          subst this
          rw [← e3] at e5
          rcases e5 with e5 | ⟨A, z, z1, -, z3⟩
          · exact absurd e5 hm
          · exact ⟨A, z, z1, z3⟩
      · obtain ⟨e1, A, z, e2, -⟩ := h1.skip (readH c)
        rw [e1] at e2
        simp at e2

/-- The store of `v` behind the phis belongs to a phi. -/
theorem SpInv.storeAt (h : SpInv f pos0 ⟨true, 0, off - 8⟩ v (fun _ _ => False) s H N M T) (hB : Base f R) (hv : Spills f v) {c : Nat} (hc : c ∈ f.allBbs) (hs : f.next + 1 ∈ H c) :
    v ∈ phisOf f c := by
  have hcs : c ∈ s.f.allBbs := by rw [h.grown.allBbs]; exact hc
  have hin : ∀ {b}, b ∈ f.allBbs → f.next + 1 ∈ H b → f.next + 1 ∈ s.f.body b := fun hb hm => by rw [h.grown.body _ hb]; simp [hm]
  have hpc := h.grown.tidy.parent c hcs _ (hin hc hs)
  obtain ⟨b, hb, hvb | hvb⟩ := inBody_split hv.inb
  · have := h.grown.tidy.parent b (by rw [h.grown.allBbs]; exact hb) _ (hin hb (h.stored b hb hvb))
    rw [hpc] at this
    rw [this]; exact hvb
  · exfalso
    have hM : M v = [f.next + 1] := by rw [h.aft, if_pos ⟨rfl, hB.front b hb v hvb⟩]
    obtain ⟨A, B, eA⟩ := List.append_of_mem hvb
    have hat := h.grown.at hb eA
    rw [hM] at hat
    have hm : f.next + 1 ∈ s.f.body b := by rw [hat]; simp
    have := h.grown.tidy.parent b (by rw [h.grown.allBbs]; exact hb) _ hm
    rw [hpc] at this
    subst this
    have hnd := h.grown.tidy.nodup c hcs
    rw [h.grown.body c hc, List.nodup_append] at hnd
    have hnd := (List.nodup_append.1 hnd.2.1).2.2 _ hs (f.next + 1) (by
      rw [eA, ex_append, ex_cons, hM]; simp)
    exact hnd rfl

/-- The spilled value is stored right after it is written. -/
theorem SpInv.freshV (h : SpInv f pos0 ⟨true, 0, off - 8⟩ v (fun _ _ => False) s H N M T) (hB : Base f R) (hv : Spills f v) (hp : PosOk pos0 off) (hpv : (pos0 v).allocated = false)
    (hres : hasResult (f.insn v).op = true) (huse : ∀ w, Live f w → refs (s.f.insn w) v = 0) :
    ¬ Loc.Needed s.f (places s.pos) (virt v) s.f.entry (s.f.body s.f.entry) := by
  have hvl : v < f.next := hB.tidy.lt v (.inr (.inr hv.inb))
  have kv : places s.pos v = virt v := by unfold places; rw [h.pos v hvl, hpv]; rfl
  have readN : ∀ x, ∀ m ∈ N x, virt v ∉ reads (places s.pos) (s.f.insn m) := fun x m hm => h.readsLoad hp (h.newN x m hm).1 (h.newN x m hm).2
  have readT : ∀ x, ∀ m ∈ T x, virt v ∉ reads (places s.pos) (s.f.insn m) := fun x m hm => h.readsLoad hp (h.newT x m hm).1 (h.newT x m hm).2
  have inb : ∀ {b x : Nat}, x ∈ codeOf f b → x ∈ f.body b := fun hx => by rw [← phisOf_append f _]; exact List.mem_append_right _ hx
  have inp : ∀ {b x : Nat}, x ∈ phisOf f b → x ∈ f.body b := fun hx => by rw [← phisOf_append f _]; exact List.mem_append_left _ hx
  have readX : ∀ b ∈ R, ∀ x ∈ codeOf f b, virt v ∉ reads (places s.pos) (s.f.insn x) := by
    intro b hb x hx hr
    rcases reads_refs hr with h1 | ⟨y, h1, h2⟩
    · have := virt_big v; omega
    have hy := (places_virt h1.symm).1
    subst hy
    have := huse x (.inr (.inr ⟨b, hB.sub b hb, inb hx⟩))
    omega
  have readH : ∀ c ∈ R, v ∉ phisOf f c → ∀ m ∈ H c, virt v ∉ reads (places s.pos) (s.f.insn m) := by
    intro c hc hnp m hm
    rcases h.heads c m hm with rfl | rfl
    · rw [h.insnA]; simp [reads, mkAlloc]
    · exact absurd (h.storeAt hB hv (hB.sub c hc) hm) hnp
  intro hneed
  have hent := hB.flow.entry
  have eb : s.f.body s.f.entry = codeOf s.f f.entry := by
    rw [h.grown.entry]
    conv => lhs; rw [← phisOf_append s.f f.entry, (h.code (hB.sub _ hent)).1, hB.entry0]
    rfl
  rw [eb, h.grown.entry] at hneed
  have key := needed_grown (f := f) (g := s.f) (k := places s.pos) (q := virt v) (R := R) (H := H) (N := N) (M := M) (T := T) hB.flow.succs h.grown.succs
    (fun b hb => h.code (hB.sub b hb)) (F := fun _ _ => False) (fun b hb pre x xs ec hne => ?_) (fun b hb hne => ?_) hent hneed
  · exact key.skip (readH _ hent (by rw [hB.entry0]; simp))
  · have hx : x ∈ codeOf f b := by rw [ec]; simp
    have h2 := (needs_append hne).skip (readN x)
    rcases h2 with h2 | ⟨h2, h3⟩
    · exact readX b hb x hx h2
    · by_cases e : x = v
      · subst e
        have hop := h.op (hB.sub b hb) (inb hx)
        rw [writes_result (by rw [hop]; exact hres) (by rw [hop]; exact hv.alloc) (by rw [hop]; exact hB.front b (hB.sub b hb) x hx), kv] at h2
        simp at h2
      · rw [h.aft, if_neg (fun h => e h.1)] at h3
        exact h3
  · obtain ⟨c, hc, ⟨x, hx, y, hy, e⟩ | ⟨hph, h1⟩⟩ := hne.skip (readT b)
    · have hy' := (places_virt e.symm).1
      subst hy'
      have hcb := hB.sub c (hB.flow.succs b hb c hc)
      have h0 := huse x (.inr (.inr ⟨c, hcb, inp hx⟩))
      have hph : (s.f.insn x).op = .phi := by rw [h.op hcb (inp hx)]; exact phisOf_phi hx
      have : 0 < refs (s.f.insn x) y := by
        rw [refs_pos]
        unfold operands
        simp only [hph, if_true, List.mem_append, List.mem_map]
        exact .inl (.inr ⟨_, hy, rfl⟩)
      omega
    · exact h1.skip (readH c (hB.flow.succs b hb c hc) (fun hm => hph v hm kv.symm))

end Verif.Cg
