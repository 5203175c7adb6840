import Verif.Cg.SpillInv
/-!
# Spilling one instruction
-/
namespace Verif.Cg
open Verif Verif.IR Verif.Edit Verif.Loc
open Verif.Norm (VrPos)
open Verif.RemPhi (All2)

/-- Every position so far is above the stack offset. -/
def PosOk (pos : Nat → VrPos) (off : Int) : Prop := off ≤ 0 ∧ ∀ x, (pos x).allocated = true → off ≤ (pos x).spilled

/-- The place of the new slot. -/
theorem slot_place {off : Int} (h : off ≤ 0) : placeOf ⟨true, 0, off - 8⟩ = 11 + 3 * (off - 8).natAbs := by
  unfold placeOf
  dsimp only
  rw [if_neg (by omega), if_pos (by omega)]

theorem slot_new {pos : Nat → VrPos} {off r : Int} (h : PosOk pos off) (hr : r < off) (x : Nat) : places pos x ≠ 11 + 3 * r.natAbs := by
  unfold places
  split
  · rename_i e
    have := h.2 x e
    have h0 := h.1
    unfold placeOf
    split
    · have := (pos x).reg.isLt; omega
    · split <;> omega
  · unfold virt; omega

theorem slot_fresh {pos : Nat → VrPos} {off : Int} (h : PosOk pos off) (x : Nat) : places pos x ≠ 11 + 3 * (off - 8).natAbs :=
  slot_new h (by omega) x

theorem placeOf_virt (p : VrPos) (n : Nat) : placeOf p ≠ virt n := by
  unfold placeOf virt
  split
  · have := p.reg.isLt; omega
  · split <;> omega

theorem places_virt {pos : Nat → VrPos} {x n : Nat} (h : places pos x = virt n) : x = n ∧ (pos x).allocated = false := by
  unfold places at h
  split at h
  · exact absurd h (placeOf_virt _ _)
  · rename_i e
    exact ⟨virt_inj h, by simpa using e⟩

variable {f : Fn} {R : List Nat} {pos0 : Nat → VrPos} {v : Nat} {s : Cg} {H N M T : Nat → List Nat} {off : Int}

theorem SpInv.placeA (h : SpInv f pos0 ⟨true, 0, off - 8⟩ v (fun _ _ => False) s H N M T) (hp : PosOk pos0 off) :
    places s.pos f.next = 11 + 3 * (off - 8).natAbs := by
  unfold places
  rw [h.posA]
  exact slot_place hp.1

theorem SpInv.placeN (h : SpInv f pos0 ⟨true, 0, off - 8⟩ v (fun _ _ => False) s H N M T) {n : Nat} (h1 : f.next < n) (h2 : n < s.f.next) :
    places s.pos n = virt n := by
  unfold places
  rw [h.posN n h1 h2]
  rfl

theorem SpInv.same (h : SpInv f pos0 ⟨true, 0, off - 8⟩ v (fun _ _ => False) s H N M T) (hB : Base f R) {x : Nat} (hx : Live f x) :
    places s.pos x = places pos0 x := by
  unfold places
  rw [h.pos x (hB.tidy.lt x hx)]

/-- Places of the old function are not new. -/
theorem SpInv.old (h : SpInv f pos0 ⟨true, 0, off - 8⟩ v (fun _ _ => False) s H N M T) (hB : Base f R) (hp : PosOk pos0 off) {x : Nat} (hx : Live f x) :
    ¬ NewAt f (places s.pos f.next) (places pos0 x) := by
  rw [h.placeA hp]
  rintro (e | ⟨n, h1, h2⟩)
  · exact slot_fresh hp x e
  · have := (places_virt h2).1
    have := hB.tidy.lt x hx
    omega

theorem SpInv.spilt (h : SpInv f pos0 ⟨true, 0, off - 8⟩ v (fun _ _ => False) s H N M T) (hB : Base f R) (hv : Spills f v) (hp : PosOk pos0 off)
    (hpv : (pos0 v).allocated = false) : Spilt f s.f R (places pos0) (places s.pos) v f.next (f.next + 1) H N M T := by
  have hvL : Live f v := .inr (.inr hv.inb)
  have lv : places pos0 v = virt v := by unfold places; rw [hpv]; rfl
  have inb : ∀ {b x : Nat}, x ∈ codeOf f b → x ∈ f.body b := fun hx => by rw [← phisOf_append f _]; exact List.mem_append_right _ hx
  have isl : ∀ n, f.next + 2 ≤ n → n < s.f.next → IsLoad f s.f (places s.pos) f.next n := by
    intro n h1 h2
    have := h.loads n h1 h2
    exact ⟨by rw [this]; rfl, by rw [this]; rfl, h.placeN (by omega) h2, by omega⟩
  refine ⟨h.grown.entry, h.grown.succs, fun b hb => (h.code (hB.sub b hb)).1, fun b hb => (h.code (hB.sub b hb)).2, fun x hx => h.same hB hx,
    fun x hx => h.old hB hp hx, ⟨by rw [h.placeA hp]; omega, fun n => by rw [h.placeA hp]; unfold virt; omega⟩, fun x hx e => ?_, by rw [lv]; unfold virt; omega,
    fun b _ x _ n hn => isl n (h.newN x n hn).1 (h.newN x n hn).2, fun b _ n hn => isl n (h.newT b n hn).1 (h.newT b n hn).2, fun b hb x hx => ?_,
    fun b _ n hn => ?_, fun b hb => h.stored b (hB.sub b hb), h.insnS, fun b hb => h.insn b (hB.sub b hb), fun b hb x hx => ?_,
    fun b hb => h.tail b (hB.sub b hb), fun b hb x hx ho e => ?_, hvL, hB.raws, fun b hb x hx => ?_⟩
  · rw [lv] at e
    exact (places_virt e).1
  · rw [h.aft]
    by_cases e : x = v
    · subst e
      rw [if_pos rfl, if_pos ⟨rfl, hB.front b (hB.sub b hb) x hx⟩]
    · rw [if_neg e, if_neg (fun h => e h.1)]
  · rcases h.heads b n hn with e | e
    · rw [e, h.insnA]; exact .inl rfl
    · exact .inr e
  · obtain ⟨q, e, hq⟩ := h.phi b (hB.sub b hb) x hx
    rw [e]
    refine all2_imp (fun o o' => ?_) hq
    rintro ⟨h1, h2 | ⟨h2, n, h3, -, h4⟩⟩
    · exact ⟨h1, .inl h2⟩
    · exact ⟨h1, .inr ⟨h2, n, h3, fun _ => h4⟩⟩
  · obtain ⟨a, r, e1, e2⟩ := hB.access x ⟨b, hB.sub b hb, inb hx⟩ ho
    rw [e1] at e
    have : a = v := by simpa using e
    exact hv.alloc (this ▸ e2)
  · have hx' : Live f x := .inr (.inr ⟨b, hB.sub b hb, hx⟩)
    exact ⟨hx', fun y hy => hB.tidy.closed x y hx' (refs_pos.2 hy)⟩

/-- Instructions of the new function. -/
theorem SpInv.cases (h : SpInv f pos0 ⟨true, 0, off - 8⟩ v (fun _ _ => False) s H N M T) {b x : Nat} (hb : b ∈ f.allBbs) (hx : x ∈ s.f.body b) :
    x ∈ f.body b ∨ x = f.next ∨ x = f.next + 1 ∨ (f.next + 2 ≤ x ∧ x < s.f.next) := by
  rw [h.grown.body b hb] at hx
  simp only [List.mem_append] at hx
  rcases hx with hx | hx | hx | hx
  · exact .inl (by rw [← phisOf_append f b]; exact List.mem_append_left _ hx)
  · rcases h.heads b x hx with e | e
    · exact .inr (.inl e)
    · exact .inr (.inr (.inl e))
  · obtain ⟨y, hy, hx⟩ := List.mem_flatMap.1 hx
    rcases List.mem_append.1 hx with hx | hx
    · exact .inr (.inr (.inr (h.newN y x hx)))
    · rcases List.mem_cons.1 hx with rfl | hx
      · exact .inl (by rw [← phisOf_append f b]; exact List.mem_append_right _ hy)
      · rw [h.aft] at hx
        split at hx
        · exact .inr (.inr (.inl (List.mem_singleton.1 hx)))
        · simp at hx
  · exact .inr (.inr (.inr (h.newT b x hx)))

theorem SpInv.insn_new (h : SpInv f pos0 ⟨true, 0, off - 8⟩ v (fun _ _ => False) s H N M T) {x : Nat}
    (hx : x = f.next ∨ x = f.next + 1 ∨ (f.next + 2 ≤ x ∧ x < s.f.next)) :
    s.f.insn x = mkAlloc .t64 ∨ s.f.insn x = mkStore f.next (.insn v) ∨ s.f.insn x = theLoad f.next := by
  rcases hx with e | e | ⟨h1, h2⟩
  · rw [e]; exact .inl h.insnA
  · rw [e]; exact .inr (.inl h.insnS)
  · exact .inr (.inr (h.loads x h1 h2))

/-- What of an old instruction stays. -/
theorem SpInv.insn_old (h : SpInv f pos0 ⟨true, 0, off - 8⟩ v (fun _ _ => False) s H N M T) (hB : Base f R) {b x : Nat} (hb : b ∈ f.allBbs) (hx : x ∈ f.body b) :
    (∃ t, s.f.insn x = mapOps t (f.insn x) ∧ ((f.insn x).op ≠ .phi ∧ ((∀ w, t w = w) ∨ ∃ n, f.next + 2 ≤ n ∧ n < s.f.next ∧ t = sub v (.insn n)))) ∨
      (x ∈ phisOf f b ∧ ∃ q, s.f.insn x = { f.insn x with phi := q } ∧ All2 (PhiRel f v N T) (f.insn x).phi q) := by
  rw [← phisOf_append f b] at hx
  rcases List.mem_append.1 hx with hx | hx
  · exact .inr ⟨hx, h.phi b hb x hx⟩
  · left
    rcases h.insn b hb x hx with e | ⟨n, hn, e⟩
    · exact ⟨id, e.trans (Edit.mapOps_id (g := id) (fun _ _ => rfl)).symm, hB.front b hb x hx, .inl fun _ => rfl⟩
    · exact ⟨_, e, hB.front b hb x hx, .inr ⟨n, (h.newN x n hn).1, (h.newN x n hn).2, rfl⟩⟩

theorem ctl_jmp {o : Norm.Op} (h1 : Loc.control o = true) (h2 : o ≠ .phi) : isJmp o = true := by
  simp only [Loc.control, isJmp, Bool.or_eq_true, decide_eq_true_eq] at h1 ⊢
  rcases h1 with h1 | h1
  · exact h1
  · exact absurd h1 h2

theorem SpInv.base (h : SpInv f pos0 ⟨true, 0, off - 8⟩ v (fun _ _ => False) s H N M T) (hB : Base f R) (hv : Spills f v) : Base s.f R := by
  have bbs := h.grown.allBbs
  have oldi : ∀ {b x : Nat}, b ∈ f.allBbs → x ∈ f.body b → (s.f.insn x).bb1 = (f.insn x).bb1 ∧ (s.f.insn x).bb2 = (f.insn x).bb2 := by
    intro b x hb hx
    rcases h.insn_old hB hb hx with ⟨t, e, -⟩ | ⟨-, q, e, -⟩ <;> rw [e] <;> exact ⟨rfl, rfl⟩
  have newc : ∀ {x : Nat}, (x = f.next ∨ x = f.next + 1 ∨ (f.next + 2 ≤ x ∧ x < s.f.next)) → Loc.control (s.f.insn x).op = false := by
    intro x hx
    rcases h.insn_new hx with e | e | e <;> rw [e] <;> rfl
  refine ⟨h.grown.tidy, ⟨by rw [h.grown.entry]; exact hB.flow.entry, by rw [h.grown.succs]; exact hB.flow.succs, fun b hb x hx ho => ?_, fun b hb x hx ho => ?_,
    fun b hb pre z r e hc hnp => ?_⟩, fun b hb => by rw [bbs]; exact hB.sub b hb, ?_, h.cover, h.users, fun b hb x hx => ?_, fun x hx ho => ?_, fun b hb x hx ho => ?_,
    fun x hx o ho => ?_, fun x hx ho => ?_⟩
  · rw [h.grown.succs]
    rcases h.cases (hB.sub b hb) hx with hx | hx
    · rw [(oldi (hB.sub b hb) hx).1]
      exact hB.flow.ja b hb x hx (by rw [← h.op (hB.sub b hb) hx]; exact ho)
    · have := newc hx; rw [ho] at this; cases this
  · rw [h.grown.succs]
    rcases h.cases (hB.sub b hb) hx with hx | hx
    · rw [(oldi (hB.sub b hb) hx).1, (oldi (hB.sub b hb) hx).2]
      exact hB.flow.cond b hb x hx (by rw [← h.op (hB.sub b hb) hx]; exact ho)
    · have := newc hx
      simp [Loc.control, ho] at this
  · have hbb := hB.sub b hb
    rcases h.cases hbb (x := z) (by rw [e]; simp) with hz | hz
    · rw [h.op hbb hz] at hc hnp
      have hzc : z ∈ codeOf f b := by
        rw [← phisOf_append f b] at hz
        rcases List.mem_append.1 hz with hz | hz
        · exact absurd (phisOf_phi hz) hnp
        · exact hz
      obtain ⟨A, B, eA⟩ := List.append_of_mem hzc
      have eB : B = [] := hB.flow.last b hb (phisOf f b ++ A) z B (by rw [← phisOf_append f b, eA, List.append_assoc]) hc hnp
      subst eB
      have hj := ctl_jmp hc hnp
      have hM : M z = [] := by
        rw [h.aft, if_neg]
        rintro ⟨e, -⟩
        have := hv.jmp
        rw [← e, hj] at this
        cases this
      have hat := h.grown.at hbb eA
      rw [hM, h.tail b hbb A z eA hj] at hat
      have hnd := h.grown.tidy.nodup b (by rw [bbs]; exact hbb)
      have hz2 : z ∉ r := by rw [e] at hnd; exact (nodup_mid hnd).2
      rcases List.eq_nil_or_concat r with er | ⟨t, y, er⟩
      · exact er
      · exfalso
        have e3 : pre ++ z :: r = (pre ++ z :: t) ++ [y] := by rw [er]; simp
        rw [e, e3] at hat
        have := congrArg List.getLast? hat
        simp only [ex, List.flatMap_nil, List.append_nil, List.getLast?_append, List.getLast?_singleton, Option.some_or] at this
        rw [er] at hz2
        apply hz2
        rw [← Option.some.inj this]; simp
    · have := newc hz; rw [hc] at this; cases this
  · rw [h.grown.entry, (h.code (hB.sub _ hB.flow.entry)).1]; exact hB.entry0
  · rw [bbs] at hb
    rw [(h.code hb).2] at hx
    simp only [List.mem_append] at hx
    rcases hx with hx | hx | hx
    · rcases h.opH hx with e | e <;> rw [e] <;> simp
    · obtain ⟨y, hy, hx⟩ := List.mem_flatMap.1 hx
      rcases List.mem_append.1 hx with hx | hx
      · rw [h.loads x (h.newN y x hx).1 (h.newN y x hx).2]; simp [theLoad, mkLoad]
      · rcases List.mem_cons.1 hx with rfl | hx
        · rw [h.op hb (by rw [← phisOf_append f b]; exact List.mem_append_right _ hy)]; exact hB.front b hb x hy
        · rw [h.aft] at hx
          split at hx
          · rw [List.mem_singleton.1 hx, h.insnS]; simp [mkStore]
          · simp at hx
    · rw [h.loads x (h.newT b x hx).1 (h.newT b x hx).2]; simp [theLoad, mkLoad]
  · obtain ⟨b, hb, hx⟩ := hx
    rw [bbs] at hb
    rcases h.cases hb hx with hx | hx
    · rw [h.op hb hx] at ho
      obtain ⟨a, r, e1, e2⟩ := hB.access x ⟨b, hb, hx⟩ ho
      have haL : Live f a := hB.tidy.closed x a (.inr (.inr ⟨b, hb, hx⟩)) (refs_pos.2 (by unfold operands; simp [e1]))
      have haop : (s.f.insn a).op = .alloc := by
        by_cases hi : InBody f a
        · obtain ⟨c, hc, ha⟩ := hi
          rw [h.op hc ha]; exact e2
        · rw [h.fixed a haL hi]; exact e2
      have hav : a ≠ v := fun e => hv.alloc (e ▸ e2)
      rcases h.insn_old hB hb hx with ⟨t, e, -, ht⟩ | ⟨hph, -⟩
      · have ta : t (.insn a) = .insn a := by
          rcases ht with ht | ⟨n, -, -, rfl⟩
          · exact ht _
          · unfold sub; rw [if_neg (fun e => hav (Val.insn.inj e))]
        refine ⟨a, r.map t, ?_, haop⟩
        rw [e]
        show (f.insn x).vals.map t = _
        rw [e1, List.map_cons, ta]
      · rw [phisOf_phi hph] at ho; simp at ho
    · rcases h.insn_new hx with e | e | e
      · rw [e] at ho; simp [mkAlloc] at ho
      · exact ⟨f.next, [.insn v], by rw [e]; rfl, by rw [h.insnA]; rfl⟩
      · exact ⟨f.next, [], by rw [e]; rfl, by rw [h.insnA]; rfl⟩
  · have hbR := hb
    have hb := hB.sub b hb
    have hxb : x ∈ s.f.body b := by rw [← phisOf_append s.f b]; exact List.mem_append_right _ hx
    rcases h.cases hb hxb with hx | hx
    · rw [h.op hb hx] at ho
      rcases h.insn_old hB hb hx with ⟨t, e, hnp, -⟩ | ⟨hph, -⟩
      · rw [e]
        show (f.insn x).vals.map t = []
        rw [← phisOf_append f b] at hx
        rcases List.mem_append.1 hx with hx | hx
        · exact absurd (phisOf_phi hx) hnp
        · rw [hB.raws b hbR x hx ho]; rfl
      · rw [phisOf_phi hph] at ho; simp at ho
    · rcases h.insn_new hx with e | e | e <;> rw [e] at ho <;> simp [mkAlloc, mkStore, theLoad, mkLoad] at ho
  · rw [bbs]
    obtain ⟨b, hb, hx⟩ := hx
    rw [bbs] at hb
    rcases h.cases hb hx with hx | hx
    · rcases h.insn_old hB hb hx with ⟨t, e, hnp, -⟩ | ⟨hph, q, e, hq⟩
      · rw [e] at ho
        refine hB.labels x ⟨b, hb, hx⟩ o ?_
        unfold mapOps at ho
        dsimp only at ho
        rw [if_neg hnp] at ho
        exact ho
      · rw [e] at ho
        obtain ⟨o0, h1, h2⟩ := all2_right hq ho
        rw [h2.1]
        exact hB.labels x ⟨b, hb, hx⟩ o0 h1
    · rcases h.insn_new hx with e | e | e <;> rw [e] at ho <;> simp [mkAlloc, mkStore, theLoad, mkLoad] at ho
  · obtain ⟨b, hb, hx⟩ := hx
    rw [bbs] at hb
    rcases h.cases hb hx with hx | hx
    · rw [h.op hb hx] at ho
      rcases h.insn_old hB hb hx with ⟨t, e, hnp, -⟩ | ⟨hph, q, e, hq⟩
      · exact absurd ho hnp
      · rw [e]; exact hB.phiVals x ⟨b, hb, hx⟩ ho
    · rcases h.insn_new hx with e | e | e <;> rw [e] at ho <;> simp [mkAlloc, mkStore, theLoad, mkLoad] at ho

theorem place_live {l k : Nat → Nat} {q : Nat} {w : Val} {t : Val → Val} (h : q ∈ place k (t w)) (hk : ∀ y, t w = .insn y → q = k y → w = .insn y ∧ k y = l y) : q ∈ place l w := by
  cases e : t w with
  | insn y =>
    rw [e] at h
    simp only [place, List.mem_singleton] at h
    obtain ⟨h1, h2⟩ := hk y e h
    rw [h1, h, h2]
    simp [place]
  | const => rw [e] at h; simp [place] at h
  | undef => rw [e] at h; simp [place] at h

theorem reads_back {l k : Nat → Nat} {q : Nat} {i : Insn} {t : Val → Val} (h : q ∈ reads k (mapOps t i)) (hk : ∀ w ∈ operands i, q ∈ place k (t w) → q ∈ place l w) :
    q ∈ reads l i := by
  have hv : ∀ w ∈ i.vals, q ∈ place k (t w) → q ∈ place l w := fun w hw => hk w (by unfold operands; simp [hw])
  have fm : q ∈ (i.vals.map t).flatMap (place k) → q ∈ i.vals.flatMap (place l) := by
    intro h
    obtain ⟨w, hw, h⟩ := List.mem_flatMap.1 h
    obtain ⟨w', hw', rfl⟩ := List.mem_map.1 hw
    exact List.mem_flatMap.2 ⟨w', hw', hv w' hw' h⟩
  by_cases h1 : i.op = .call
  · simp only [reads, mapOps, h1] at h ⊢; exact h
  by_cases h2 : i.op = .store
  · simp only [reads, mapOps, h2] at h ⊢
    rw [← List.map_tail] at h
    obtain ⟨w, hw, h⟩ := List.mem_flatMap.1 h
    obtain ⟨w', hw', rfl⟩ := List.mem_map.1 hw
    exact List.mem_flatMap.2 ⟨w', hw', hv w' (List.mem_of_mem_tail hw') h⟩
  by_cases h3 : i.op = .loadraw
  · simp only [reads, mapOps, h3, raw] at h ⊢
    exact hk i.addr (by unfold operands; simp [h3, raw]) (by simpa using h)
  by_cases h4 : i.op = .storeraw
  · simp only [reads, mapOps, h4, raw, List.mem_append] at h ⊢
    rcases h with h | h
    · exact .inl (fm h)
    · exact .inr (hk i.addr (by unfold operands; simp [h4, raw]) (by simpa using h))
  · have e1 : reads l i = i.vals.flatMap (place l) := by unfold reads; split <;> first | rfl | contradiction
    have e2 : reads k (mapOps t i) = (i.vals.map t).flatMap (place k) := by
      unfold reads; rw [mapOps_op]; split <;> first | rfl | contradiction
    rw [e2] at h
    rw [e1]
    exact fm h

/-- What is needed in the new function was needed before. -/
theorem SpInv.needed (h : SpInv f pos0 ⟨true, 0, off - 8⟩ v (fun _ _ => False) s H N M T) (hB : Base f R) (hv : Spills f v) (hp : PosOk pos0 off)
    {q : Nat} (hq : ¬ NewAt f (places s.pos f.next) q) (hqv : q ≠ places s.pos v) {b : Nat} {r : List Nat} (hn : Loc.Needed s.f (places s.pos) q b r) :
    b ∈ R → (∀ x ∈ r, x ∈ s.f.body b) → Loc.Needed f (places pos0) q b (r.filter (· < f.next)) := by
  have hnew : ∀ n, f.next < n → n < s.f.next → q ≠ places s.pos n := fun n h1 h2 e => hq (.inr ⟨n, by omega, by rw [e]; exact h.placeN h1 h2⟩)
  have hnA : q ≠ places s.pos f.next := fun e => hq (.inl e)
  have hlt : ∀ {b x : Nat}, b ∈ f.allBbs → x ∈ f.body b → x < f.next := fun hb hx => hB.tidy.lt _ (.inr (.inr ⟨_, hb, hx⟩))
  have opL : ∀ {b x y : Nat}, b ∈ f.allBbs → x ∈ f.body b → .insn y ∈ operands (f.insn x) → Live f y := fun hb hx hy =>
    hB.tidy.closed _ _ (.inr (.inr ⟨_, hb, hx⟩)) (refs_pos.2 hy)
  induction hn with
  | @read b x rest hr =>
    intro hb hm
    have hbb := hB.sub b hb
    have hxg := hm x List.mem_cons_self
    rcases h.cases hbb hxg with hx | hx
    · rw [List.filter_cons_of_pos (by simpa using hlt hbb hx)]
      refine .read ?_
      rcases h.insn_old hB hbb hx with ⟨t, e, hnp, ht⟩ | ⟨hph, q', e, -⟩
      · rw [e] at hr
        refine reads_back hr (fun w hw hpl => place_live hpl (fun y e1 e2 => ?_))
        rcases ht with ht | ⟨n, n1, n2, rfl⟩
        · rw [ht] at e1
          subst e1
          exact ⟨rfl, h.same hB (opL hbb hx hw)⟩
        · unfold sub at e1
          by_cases e3 : w = .insn v
          · rw [if_pos e3] at e1
            have := Val.insn.inj e1
            subst this
            exact absurd e2 (hnew n (by omega) n2)
          · rw [if_neg e3] at e1
            subst e1
            exact ⟨rfl, h.same hB (opL hbb hx hw)⟩
      · exfalso
        have h1 : (s.f.insn x).op = .phi := by rw [e]; exact phisOf_phi hph
        have h2 : (s.f.insn x).vals = [] := by rw [e]; exact hB.phiVals x ⟨b, hbb, hx⟩ (phisOf_phi hph)
        simp [reads, h1, h2] at hr
    · exfalso
      rcases h.insn_new hx with e | e | e <;> rw [e] at hr
      · simp [reads, mkAlloc] at hr
      · simp [reads, mkStore, place] at hr; exact hqv hr
      · simp [reads, theLoad, mkLoad, place] at hr; exact hnA hr
  | @skip b x rest hr _ ih =>
    intro hb hm
    have hbb := hB.sub b hb
    have hxg := hm x List.mem_cons_self
    have ih := ih hb (fun y hy => hm y (List.mem_cons_of_mem _ hy))
    rcases h.cases hbb hxg with hx | hx
    · rw [List.filter_cons_of_pos (by simpa using hlt hbb hx)]
      refine .skip (fun hw => hr ?_) ih
      have hop := h.op hbb hx
      have hsx := h.same hB (x := x) (.inr (.inr ⟨b, hbb, hx⟩))
      by_cases hst : (f.insn x).op = .store
      · obtain ⟨a, r, e1, e2⟩ := hB.access x ⟨b, hbb, hx⟩ (.inr hst)
        have hav : a ≠ v := fun e => hv.alloc (e ▸ e2)
        rcases h.insn_old hB hbb hx with ⟨t, e, -, ht⟩ | ⟨hph, -⟩
        · have ta : t (.insn a) = .insn a := by
            rcases ht with ht | ⟨n, -, -, rfl⟩
            · exact ht _
            · unfold sub; rw [if_neg (fun e => hav (Val.insn.inj e))]
          have ev : (s.f.insn x).vals = .insn a :: r.map t := by
            rw [e]
            show (f.insn x).vals.map t = _
            rw [e1, List.map_cons, ta]
          unfold Loc.writes at hw ⊢
          rw [hop, ev]
          rw [hst, e1] at hw
          rw [hst]
          simp [place] at hw ⊢
          rw [hw, h.same hB (opL hbb hx (by unfold operands; simp [e1]))]
        · rw [phisOf_phi hph] at hst; cases hst
      · unfold Loc.writes at hw ⊢
        rw [hop]
        rw [← hsx] at hw
        revert hw
        split <;> first | exact id | contradiction
    · have : ¬ x < f.next := by omega
      rw [List.filter_cons_of_neg (by simpa using this)]
      exact ih
  | @phi b c x y hc hx hy hqy =>
    intro hb _
    rw [List.filter_nil]
    rw [h.grown.succs] at hc
    have hcb := hB.sub c (hB.flow.succs b hb c hc)
    rw [(h.code hcb).1] at hx
    obtain ⟨q', e, hq'⟩ := h.phi c hcb x hx
    rw [e] at hy
    obtain ⟨o, ho, h1, h2⟩ := all2_right hq' hy
    have hxb : x ∈ f.body c := by rw [← phisOf_append f c]; exact List.mem_append_left _ hx
    rcases h2 with h2 | ⟨-, n, h2, h3, h4⟩
    · have eo : o = (b, .insn y) := by rw [show o = (o.1, o.2) from rfl, ← h1, ← h2]
      rw [eo] at ho
      refine .phi hc hx ho (hqy.trans (h.same hB (opL hcb hxb ?_)))
      unfold operands
      rw [phisOf_phi hx]
      simp only [if_true, List.mem_append, List.mem_map]
      exact .inl (.inr ⟨_, ho, rfl⟩)
    · have := Val.insn.inj h2
      subst this
      have hlt2 : y < s.f.next := by
        rcases h4 with h4 | ⟨A, z, -, -, h4⟩
        · exact (h.newT _ _ h4).2
        · exact (h.newN _ _ h4).2
      exact absurd hqy (hnew y (by omega) hlt2)
  | @edge b c hc hph _ ih =>
    intro hb _
    rw [List.filter_nil]
    rw [h.grown.succs] at hc
    have hcR := hB.flow.succs b hb c hc
    have hcb := hB.sub c hcR
    have ih := ih hcR (fun x hx => by rw [← phisOf_append s.f c]; exact List.mem_append_right _ hx)
    refine .edge hc (fun x hx => ?_) ?_
    · have hxb : x ∈ f.body c := by rw [← phisOf_append f c]; exact List.mem_append_left _ hx
      rw [← h.same hB (.inr (.inr ⟨c, hcb, hxb⟩))]
      exact hph x (by rw [(h.code hcb).1]; exact hx)
    · have : (codeOf s.f c).filter (· < f.next) = codeOf f c := by
        rw [(h.code hcb).2, List.filter_append, List.filter_append]
        have e1 : (H c).filter (· < f.next) = [] := by
          rw [List.filter_eq_nil_iff]
          intro n hn
          have := h.grown.newB c n (List.mem_append_left _ hn)
          simp; omega
        have e2 : (T c).filter (· < f.next) = [] := by
          rw [List.filter_eq_nil_iff]
          intro n hn
          have := h.grown.newB c n (List.mem_append_right _ hn)
          simp; omega
        have e3 : ∀ l : List Nat, (∀ x ∈ l, x < f.next) → (ex N M l).filter (· < f.next) = l := by
          intro l
          induction l with
          | nil => intro _; rfl
          | cons x l ih =>
            intro hl
            rw [ex_cons, List.filter_append, List.filter_cons_of_pos (by simpa using hl x List.mem_cons_self), List.filter_append, ih (fun y hy => hl y (List.mem_cons_of_mem _ hy))]
            have e1 : (N x).filter (· < f.next) = [] := by
              rw [List.filter_eq_nil_iff]
              intro n hn
              have := h.grown.newI x n (List.mem_append_left _ hn)
              simp; omega
            have e2 : (M x).filter (· < f.next) = [] := by
              rw [List.filter_eq_nil_iff]
              intro n hn
              have := h.grown.newI x n (List.mem_append_right _ hn)
              simp; omega
            rw [e1, e2]; rfl
        rw [e1, e2, e3 _ (fun x hx => hlt hcb (by rw [← phisOf_append f c]; exact List.mem_append_right _ hx))]
        simp
      rw [← this]
      exact ih

end Verif.Cg
