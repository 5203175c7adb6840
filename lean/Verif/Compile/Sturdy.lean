import Verif.Compile.Analyse
/-!
# Operands and fields that code generation relies on
-/
namespace Verif.Compile
open Verif Verif.IR Verif.Edit Verif.Cg
open Verif.Loc (hasResult phisOf_phi)
open Verif.Lower (Ready Neat)
open Verif.Norm (VrPos Reg Op)

/-- An instruction or a constant of 32 bits that is not a builtin constant. -/
def OkV (v : Val) : Prop := (∃ y, v = .insn y) ∨ ∃ k c, v = .const k c .w32 .none

/-- The operations that reach the later steps. -/
def okOp (o : Op) : Bool :=
  match o with
  | .throw | .allocarray | .getelemptr | .ecall | .funarg | .reg => false
  | _ => true

/-- What code generation relies on in an instruction; with `L.1` also that loads have no constant as their address, with `L.2` that no jump compares two constants. -/
structure Sturdy (L : Bool × Bool) (i : Insn) : Prop where
  op : okOp i.op = true
  ops : ∀ v ∈ operands i, OkV v
  two : i.op.binAlu = true ∨ i.op.condJmp = true ∨ i.op = .store → i.vals.length = 2
  one : i.op = .neg ∨ i.op = .htobe ∨ i.op = .htole ∨ i.op = .assign ∨ i.op = .load ∨ i.op = .storeraw → i.vals.length = 1
  ret : i.op = .ret → i.vals.length ≤ 1
  typ : i.op = .loadraw ∨ i.op = .storeraw ∨ i.op = .alloc → i.vrType ≠ .unknown
  sto : i.op = .storeraw ∨ L.1 = true ∧ i.op = .loadraw → ∃ y, i.addr = .insn y
  imm : i.op = .loadimm → i.immKind ≤ 6
  test : L.2 = true → i.op.condJmp = true → ∃ y, .insn y ∈ i.vals

variable {L : Bool × Bool}

theorem Sturdy.map {i : Insn} (h : Sturdy L i) {t : Val → Val} (ht : ∀ v, OkV v → OkV (t v)) (hi : ∀ y, ∃ z, t (.insn y) = .insn z) : Sturdy L (mapOps t i) := by
  refine ⟨h.op, fun v hv => ?_, fun o => ?_, fun o => ?_, fun o => ?_, h.typ, fun o => ?_, h.imm, fun hL o => ?_⟩
  · rw [operands_mapOps] at hv
    obtain ⟨w, hw, rfl⟩ := List.mem_map.1 hv
    exact ht w (h.ops w hw)
  · rw [show (mapOps t i).vals = i.vals.map t from rfl, List.length_map]; exact h.two o
  · rw [show (mapOps t i).vals = i.vals.map t from rfl, List.length_map]; exact h.one o
  · rw [show (mapOps t i).vals = i.vals.map t from rfl, List.length_map]; exact h.ret o
  · have o' : i.op = .storeraw ∨ L.1 = true ∧ i.op = .loadraw := o
    obtain ⟨y, e⟩ := h.sto o'
    obtain ⟨z, ez⟩ := hi y
    refine ⟨z, ?_⟩
    show (if raw i.op then t i.addr else i.addr) = _
    have hraw : raw i.op = true := by rcases o' with o' | ⟨-, o'⟩ <;> rw [o'] <;> rfl
    rw [e, if_pos hraw, ez]
  · obtain ⟨y, hy⟩ := h.test hL o
    obtain ⟨z, ez⟩ := hi y
    exact ⟨z, List.mem_map.2 ⟨_, hy, ez⟩⟩

theorem Sturdy.phi {i : Insn} (h : Sturdy L i) (hp : i.op = .phi) {q : List (Nat × Val)} (hq : ∀ o ∈ q, OkV o.2) : Sturdy L { i with phi := q } := by
  refine ⟨h.op, fun v hv => ?_, h.two, h.one, h.ret, h.typ, h.sto, h.imm, h.test⟩
  unfold operands at hv
  simp only [hp, if_true, List.mem_append] at hv
  rcases hv with (hv | hv) | hv
  · exact h.ops v (by unfold operands; simp [hv])
  · obtain ⟨o, ho, rfl⟩ := List.mem_map.1 hv
    exact hq o ho
  · rw [if_neg (by decide)] at hv
    cases hv

theorem Sturdy.call {i : Insn} (h : Sturdy L i) (hp : i.op = .call) : Sturdy L { i with vals := [] } := by
  refine ⟨h.op, fun v hv => ?_, fun o => ?_, fun o => ?_, fun _ => Nat.zero_le _, h.typ, h.sto, h.imm, fun _ o => ?_⟩
  · refine h.ops v ?_
    unfold operands at hv ⊢
    simp only [hp, List.nil_append, List.mem_append] at hv ⊢
    rcases hv with hv | hv
    · exact .inl (.inr hv)
    · exact .inr hv
  · have o : i.op.binAlu = true ∨ i.op.condJmp = true ∨ i.op = .store := o
    rw [hp] at o
    rcases o with o | o | o <;> cases o
  · have o : i.op = .neg ∨ i.op = .htobe ∨ i.op = .htole ∨ i.op = .assign ∨ i.op = .load ∨ i.op = .storeraw := o
    rw [hp] at o
    rcases o with o | o | o | o | o | o <;> cases o
  · have o : i.op.condJmp = true := o
    rw [hp] at o
    cases o

theorem Sturdy.fitted {i : Insn} (h : Sturdy L i) (j n : Nat) : Sturdy L (fitted i j n) := by
  have hl : (Cg.fitted i j n).vals.length = i.vals.length := by show (i.vals.set j (.insn n)).length = _; simp
  refine ⟨h.op, fun v hv => ?_, fun o => by rw [hl]; exact h.two o, fun o => by rw [hl]; exact h.one o, fun o => by rw [hl]; exact h.ret o, h.typ, h.sto, h.imm, fun hL o => ?_⟩
  rotate_left
  · obtain ⟨y, hy⟩ := h.test hL o
    obtain ⟨k, hk, e⟩ := List.mem_iff_getElem.1 hy
    by_cases hj : j = k
    · exact ⟨n, by show _ ∈ i.vals.set j (.insn n); rw [hj]; exact List.mem_set hk _⟩
    · refine ⟨y, ?_⟩
      show _ ∈ i.vals.set j (.insn n)
      exact List.mem_iff_getElem.2 ⟨k, by rw [List.length_set]; exact hk, by rw [List.getElem_set_ne hj]; exact e⟩
  have hv' : v ∈ operands i ∨ v = .insn n := by
    unfold operands Cg.fitted at hv
    unfold operands
    simp only [List.mem_append] at hv ⊢
    rcases hv with (hv | hv) | hv
    · rcases List.mem_or_eq_of_mem_set hv with hv | hv
      · exact .inl (.inl (.inl hv))
      · exact .inr hv
    · exact .inl (.inl (.inr hv))
    · exact .inl (.inr hv)
  rcases hv' with hv | hv
  · exact h.ops v hv
  · exact .inl ⟨n, hv⟩

theorem Sturdy.assign {v : Val} (h : OkV v) : Sturdy L (mkAssign v) := by
  refine ⟨rfl, fun w hw => ?_, fun o => ?_, fun _ => rfl, fun o => ?_, fun o => ?_, fun o => ?_, fun o => ?_, fun _ o => by cases o⟩
  · have : w = v := by simpa [operands, mkAssign, raw] using hw
    rw [this]; exact h
  · rcases o with o | o | o <;> cases o
  · cases o
  · rcases o with o | o | o <;> cases o
  · rcases o with o | ⟨-, o⟩ <;> cases o
  · cases o

theorem Sturdy.alloc : Sturdy L (mkAlloc .t64) := by
  refine ⟨rfl, fun w hw => ?_, fun o => ?_, fun o => ?_, fun o => ?_, fun _ => by simp [mkAlloc], fun o => ?_, fun o => ?_, fun _ o => by cases o⟩
  · simp [operands, mkAlloc, raw] at hw
  · rcases o with o | o | o <;> cases o
  · rcases o with o | o | o | o | o | o <;> cases o
  · cases o
  · rcases o with o | ⟨-, o⟩ <;> cases o
  · cases o

theorem Sturdy.load (a : Nat) : Sturdy L (theLoad a) := by
  refine ⟨rfl, fun w hw => ?_, fun o => ?_, fun o => rfl, fun o => ?_, fun o => ?_, fun o => ?_, fun o => ?_, fun _ o => by cases o⟩
  · have : w = .insn a := by simpa [operands, theLoad, mkLoad, raw] using hw
    exact .inl ⟨a, this⟩
  · rcases o with o | o | o <;> cases o
  · cases o
  · rcases o with o | o | o <;> cases o
  · rcases o with o | ⟨-, o⟩ <;> cases o
  · cases o

theorem Sturdy.store (a v : Nat) : Sturdy L (mkStore a (.insn v)) := by
  refine ⟨rfl, fun w hw => ?_, fun o => rfl, fun o => ?_, fun o => ?_, fun o => ?_, fun o => ?_, fun o => ?_, fun _ o => by cases o⟩
  · have : w = .insn a ∨ w = .insn v := by simpa [operands, mkStore, raw] using hw
    rcases this with e | e
    · exact .inl ⟨a, e⟩
    · exact .inl ⟨v, e⟩
  · rcases o with o | o | o | o | o | o <;> cases o
  · cases o
  · rcases o with o | o | o <;> cases o
  · rcases o with o | ⟨-, o⟩ <;> cases o
  · cases o

theorem okV_sub {v n : Nat} (w : Val) (h : OkV w) : OkV (sub v (.insn n) w) := by
  unfold sub
  split
  · exact .inl ⟨n, rfl⟩
  · exact h

theorem sub_insn (v n y : Nat) : ∃ z, sub v (.insn n) (.insn y) = .insn z := by
  unfold sub
  split
  · exact ⟨n, rfl⟩
  · exact ⟨y, rfl⟩

theorem okV_ren {rn : Nat → Nat} (w : Val) (h : OkV w) : OkV (renV rn w) := by
  rcases h with ⟨y, rfl⟩ | ⟨k, c, rfl⟩
  · exact .inl ⟨_, rfl⟩
  · exact .inr ⟨k, c, rfl⟩

/-- What the rounds and the later steps need beside `Holds`. -/
structure Solid (L : Bool × Bool) (P : Nat → Prop) (R : List Nat) (f : Fn) : Prop extends Steady P R f where
  sturdy : ∀ x, InR f R x → Sturdy L (f.insn x)

/-! ## Spilling -/

theorem spillOne_solid {s s' : Cg} {R : List Nat} {rg : Nat → Nat} {d : BitVec 16} {off off' : Int} {v : Nat} {P : Nat → Prop} (h : Holds s R rg d off) (hv : VictimR s R v)
    (ht : Solid L P R s.f) (hall : ∀ b ∈ s.f.allBbs, b ∈ R) (e : spillOne v s off = .ok (s', off')) : Solid L P R s'.f := by
  have hvl : v < s.f.next := h.ready.tidy.lt v (.inr (.inr hv.1.inb))
  have htight := spillOne_tight e hvl ht.tight
  by_cases ho : (s.f.insn v).op = .alloc
  · unfold spillOne at e
    rw [if_neg (fun h => h.elim (hasResult_jmp hv.1.op.1).2 hv.1.op.2), if_pos ho] at e
    cases e
    exact ht
  · obtain ⟨s1, H, N, T, e1, hI⟩ := spill_inv (off := off) h.ready.base hv.1 ho
    rw [e] at e1
    cases e1
    have cs : ∀ x, InR s'.f R x → (∃ b ∈ R, b ∈ s.f.allBbs ∧ x ∈ s.f.body b) ∨ (s.f.next ≤ x ∧ (s'.f.insn x = mkAlloc .t64 ∨ s'.f.insn x = mkStore s.f.next (.insn v) ∨ s'.f.insn x = theLoad s.f.next)) := by
      rintro x ⟨b, hb, hx⟩
      have hbb := h.ready.sub b hb
      rcases hI.cases hbb hx with hx | hx
      · exact .inl ⟨b, hb, hbb, hx⟩
      · refine .inr ⟨?_, hI.insn_new hx⟩
        rcases hx with e | e | ⟨e, -⟩ <;> omega
    refine ⟨⟨htight, fun x hx => ?_, fun n hn => ht.up n (Nat.le_trans hI.grown.next hn), fun x hx hb hm => ?_⟩, fun x hx => ?_⟩
    · obtain ⟨b, hb, hx⟩ := hx
      rw [hI.grown.allBbs] at hb
      rcases cs x ⟨b, hall b hb, hx⟩ with ⟨c, hc, hcc, hx⟩ | ⟨hn, -⟩
      · exact ht.dom x ⟨c, hcc, hx⟩
      · exact ht.up x hn
    · rcases cs x hx with ⟨b, hbR, hbb, hxb⟩ | ⟨hn, e1 | e1 | e1⟩
      · have hxl : x < s.f.next := h.ready.tidy.lt x (.inr (.inr ⟨b, hbb, hxb⟩))
        rcases hI.insn_old h.ready.base hbb hxb with ⟨t, e, -, ht'⟩ | ⟨hp, q, e, -⟩
        · rw [e, mapOps_op] at hb
          rw [e, operands_mapOps] at hm
          obtain ⟨w, hw, ew⟩ := List.mem_map.1 hm
          have : w = .insn x := by
            rcases ht' with ht' | ⟨n, hn, -, rfl⟩
            · rw [ht'] at ew; exact ew
            · unfold sub at ew
              split at ew
              · injection ew with ew
                omega
              · exact ew
          subst this
          exact ht.self x ⟨b, hbR, hxb⟩ hb hw
        · rw [hI.op hbb hxb, phisOf_phi hp] at hb
          cases hb
      all_goals
        rw [e1] at hb
        cases hb
    · rcases cs x hx with ⟨b, hbR, hbb, hxb⟩ | ⟨hn, e1 | e1 | e1⟩
      · have hs := ht.sturdy x ⟨b, hbR, hxb⟩
        rcases hI.insn_old h.ready.base hbb hxb with ⟨t, e, -, ht'⟩ | ⟨hp, q, e, hq⟩
        · rw [e]
          rcases ht' with ht' | ⟨n, -, -, rfl⟩
          · exact hs.map (fun v hv => by rw [ht' v]; exact hv) (fun y => ⟨y, ht' _⟩)
          · exact hs.map okV_sub (sub_insn _ _)
        · rw [e]
          refine hs.phi (phisOf_phi hp) (fun o ho => ?_)
          obtain ⟨o1, ho1, h2⟩ := all2_right hq ho
          rcases h2.2 with h3 | ⟨-, n, h3, -⟩
          · rw [h3]
            exact hs.ops _ (by unfold operands; rw [if_pos (phisOf_phi hp)]; simp only [List.mem_append]; exact .inl (.inr (List.mem_map.2 ⟨o1, ho1, rfl⟩)))
          · exact .inl ⟨n, h3⟩
      · rw [e1]; exact .alloc
      · rw [e1]; exact .store _ _
      · rw [e1]; exact .load _

theorem spill_solid {R : List Nat} {rg : Nat → Nat} {d : BitVec 16} {P : Nat → Prop} : ∀ (vs : List Nat) (s s' : Cg) (off off' : Int), Holds s R rg d off → (∀ v ∈ vs, VictimR s R v) → vs.Nodup →
    Solid L P R s.f → (∀ b ∈ s.f.allBbs, b ∈ R) → spill vs s off = .ok (s', off') → Solid L P R s'.f
  | [], s, s', off, off', h, _, _, ht, _, e => by cases e; exact ht
  | v :: vs, s, s', off, off', h, hv, hn, ht, hall, e => by
    obtain ⟨hvn, hn⟩ := List.nodup_cons.1 hn
    unfold spill at e
    obtain ⟨⟨s1, off1⟩, e1, e2⟩ := Out.bind_eq_ok.1 e
    obtain ⟨h1, h2⟩ := spill_holds h (hv v List.mem_cons_self) e1
    have hf := spillOne_frame h (hv v List.mem_cons_self) e1
    exact spill_solid vs s1 s' off1 off' h1 (fun w hw => h2 w (fun e => hvn (by rw [← e]; exact hw)) (hv w (List.mem_cons_of_mem _ hw))) hn
      (spillOne_solid h (hv v List.mem_cons_self) ht hall e1) (by rw [hf.allBbs]; exact hall) e2

/-! ## Before the rounds -/

theorem low_new {f : Fn} {R : List Nat} {C : List Nat} {A : List (Nat × Nat)} {s : Cg} {rn : Nat → Nat} {H N M : Nat → List Nat} (ht : Tidy f)
    (h : Low (initCg f).f (rgOf f) (initCg f).pos C A s rn H N M) (hC : ∀ y, y ∈ C ↔ (∃ b ∈ R, y ∈ f.body b) ∧ (f.insn y).op = .call)
    (hs : ∀ x, InR f R x → Sturdy L (f.insn x)) {b x : Nat} (hb : b ∈ f.allBbs) (hx : x ∈ s.f.body b) :
    x ∈ f.body b ∨ f.next ≤ x ∧ ∃ v, s.f.insn x = mkAssign v ∧ OkV v := by
  have hnB := h.core.grown.newB b
  have hnI := h.core.grown.newI
  have hle : f.next ≤ (initCg f).f.next := by show f.next ≤ f.next + 10; omega
  rw [h.core.grown.body b hb] at hx
  simp only [List.append_nil, List.mem_append] at hx
  rcases hx with hx | hx | hx
  · rw [(init_code ht hb).1] at hx
    exact .inl (phis_body hx)
  · right
    refine ⟨Nat.le_trans hle (hnB x (by simp [hx])), ?_⟩
    by_cases e : b = f.entry
    · subst e
      obtain ⟨⟨i, _, e⟩, _⟩ := h.core.resH x hx
      exact ⟨_, e, .inl ⟨_, rfl⟩⟩
    · rw [h.core.head b e] at hx; cases hx
  · rw [(init_code ht hb).2] at hx
    obtain ⟨y, hy, hx⟩ := List.mem_flatMap.1 hx
    rcases List.mem_append.1 hx with hx | hx
    · right
      refine ⟨Nat.le_trans hle (hnI y x (List.mem_append_left _ hx)), ?_⟩
      by_cases hyC : y ∈ C
      · obtain ⟨v, hv, e⟩ := (h.core.copies y hyC).asg x hx
        obtain ⟨⟨c, hc, hyc⟩, -⟩ := (hC y).1 hyC
        have hyl : Live f y := .inr (.inr ⟨b, hb, code_body hy⟩)
        rw [init_insn (ht.lt y hyl)] at hv
        exact ⟨_, e, okV_ren _ ((hs y ⟨c, hc, hyc⟩).ops v (by unfold operands; simp [hv]))⟩
      · rw [(h.core.none y hyC).1] at hx; cases hx
    · rcases List.mem_cons.1 hx with rfl | hx
      · exact .inl (code_body hy)
      · exact .inr ⟨Nat.le_trans hle (hnI y x (List.mem_append_right _ hx)), _, (h.core.resM y x hx).1, .inl ⟨_, rfl⟩⟩

/-- When some operand of the comparison is no constant. -/
theorem Sturdy.tested {i : Insn} (h : Sturdy L i) (ht : i.op.condJmp = true → ∃ y, .insn y ∈ i.vals) : Sturdy (L.1, true) i :=
  ⟨h.op, h.ops, h.two, h.one, h.ret, h.typ, h.sto, h.imm, fun _ => ht⟩

theorem Sturdy.fit {i : Insn} (h : Sturdy L i) (hu : ∀ j, ¬ Unfit i j) : Sturdy (L.1, true) i := by
  refine h.tested fun o => ?_
  have hl := h.two (.inr (.inl o))
  rcases e : i.vals with _ | ⟨a, _ | ⟨b, _ | ⟨c, r⟩⟩⟩ <;> rw [e] at hl <;> try (simp at hl; done)
  have hm : ∀ v ∈ i.vals, OkV v := fun v hv => h.ops v (by unfold operands; simp [hv])
  rw [e] at hm
  rcases hm a (by simp) with ⟨y, rfl⟩ | ⟨k, c, rfl⟩
  · exact ⟨y, by simp⟩
  · rcases hm b (by simp) with ⟨y, rfl⟩ | ⟨k', c', rfl⟩
    · exact ⟨y, by simp⟩
    · exact absurd (.jmp o e) (hu 1)

theorem const_solid {s s' : Cg} {R : List Nat} {rg : Nat → Nat} {d : BitVec 16} {off : Int} (h : Holds s R rg d off) (hR : R.Nodup) (e : spillConst R s = .ok s')
    (hself : NoSelf s.f R) (hs : ∀ x, InR s.f R x → Sturdy L (s.f.insn x)) :
    NoSelf s'.f R ∧ (∀ x, InR s'.f R x → Sturdy (L.1, true) (s'.f.insn x)) ∧ s.f.next ≤ s'.f.next ∧ ∀ b ∈ s.f.allBbs, ∀ x ∈ s'.f.body b, x ∈ s.f.body b ∨ s.f.next ≤ x := by
  have hB := h.ready.base
  obtain ⟨s1, N, e1, hI⟩ := CInv.loop hB (R.flatMap s.f.body) s _ _ (CInv.start hB s.pos) (fun x hx => by
    obtain ⟨b, hb, hx⟩ := List.mem_flatMap.1 hx
    exact ⟨⟨b, hB.sub b hb, hx⟩, fun h => h⟩) (nodup_bodies hB.tidy hB.sub hR)
  have : spillConst R s = constsToRegs (R.flatMap s.f.body) s := rfl
  rw [this, e1] at e
  cases e
  have unfitV : ∀ {i : Insn} {j : Nat}, Unfit i j → i.vals.getD j .undef ∈ i.vals := fun {i j} hu => by
    have : isConst i.vals[j]? = true := by
      rcases hu with ⟨h1, h2, h3⟩ | ⟨h1, h2⟩ <;> subst_vars <;> simp_all [isConst]
    cases hv : i.vals[j]? with
    | none => rw [hv] at this; cases this
    | some v => rw [List.getD_eq_getElem?_getD, hv]; exact List.mem_of_getElem? hv
  have old : ∀ x, InR s.f R x → (s'.f.insn x = s.f.insn x ∧ ∀ j, ¬ Unfit (s.f.insn x) j) ∨ ∃ j n, s.f.next ≤ n ∧ s'.f.insn x = fitted (s.f.insn x) j n ∧ Unfit (s.f.insn x) j := fun x hx => by
    have hxl : x < s.f.next := hB.tidy.lt x (.inr (.inr (hx.inBody hB.sub)))
    have hD : False ∨ x ∈ R.flatMap s.f.body := by
      obtain ⟨b, hb, hx⟩ := hx
      exact .inr (List.mem_flatMap.2 ⟨b, hb, hx⟩)
    by_cases hu : ∃ j, Unfit (s.f.insn x) j
    · obtain ⟨j, hu⟩ := hu
      obtain ⟨n, -, h1, -, -, h2⟩ := hI.moved x hD j hu
      exact .inr ⟨j, n, h1, h2, hu⟩
    · exact .inl ⟨(hI.same x hxl (.inr (fun j hj => hu ⟨j, hj⟩))).1, fun j hj => hu ⟨j, hj⟩⟩
  have new : ∀ b ∈ s.f.allBbs, ∀ x ∈ s'.f.body b, x ∈ s.f.body b ∨ (s.f.next ≤ x ∧ ∃ y, x ∈ N y ∧ y ∈ s.f.body b) := fun b hb x hx => by
    rw [hI.grown.body b hb] at hx
    simp only [List.nil_append, List.append_nil, List.mem_append] at hx
    rcases hx with hx | hx
    · exact .inl (phis_body hx)
    · obtain ⟨y, hy, hx⟩ := List.mem_flatMap.1 hx
      rcases List.mem_append.1 hx with hx | hx
      · exact .inr ⟨(hI.newN y x hx).1, y, hx, code_body hy⟩
      · rw [List.mem_singleton] at hx
        subst hx
        exact .inl (code_body hy)
  have asg : ∀ x, InR s'.f R x → InR s.f R x ∨ ∃ v, s'.f.insn x = mkAssign v ∧ OkV v := by
    rintro x ⟨b, hb, hx⟩
    rcases new b (hB.sub b hb) x hx with hx | ⟨hn, y, hy, hyb⟩
    · exact .inl ⟨b, hb, hx⟩
    · right
      have hyR : InR s.f R y := ⟨b, hb, hyb⟩
      have hyl : y < s.f.next := hB.tidy.lt y (.inr (.inr (hyR.inBody hB.sub)))
      have hD : False ∨ y ∈ R.flatMap s.f.body := .inr (List.mem_flatMap.2 ⟨b, hb, hyb⟩)
      by_cases hu : ∃ j, Unfit (s.f.insn y) j
      · obtain ⟨j, hu⟩ := hu
        obtain ⟨n, h0, h1, -, h2, -⟩ := hI.moved y hD j hu
        rw [h0, List.mem_singleton] at hy
        subst hy
        exact ⟨_, h2, (hs y hyR).ops _ (by unfold operands; simp only [List.mem_append]; exact .inl (.inl (unfitV hu)))⟩
      · rw [(hI.same y hyl (.inr (fun j hj => hu ⟨j, hj⟩))).2] at hy
        cases hy
  refine ⟨fun x hx hb hm => ?_, fun x hx => ?_, hI.grown.next, fun b hb x hx => ?_⟩
  · rcases asg x hx with hx | ⟨v, e, -⟩
    · have hxl : x < s.f.next := hB.tidy.lt x (.inr (.inr (hx.inBody hB.sub)))
      rcases old x hx with ⟨e, -⟩ | ⟨j, n, hn, e, -⟩
      · rw [e] at hb hm
        exact hself x hx hb hm
      · rw [e] at hb hm
        refine hself x hx hb ?_
        unfold operands fitted at hm
        unfold operands
        simp only [List.mem_append] at hm ⊢
        rcases hm with (hm | hm) | hm
        · rcases List.mem_or_eq_of_mem_set hm with hm | hm
          · exact .inl (.inl hm)
          · injection hm with hm
            omega
        · exact .inl (.inr hm)
        · exact .inr hm
    · rw [e] at hb
      cases hb
  · rcases asg x hx with hx | ⟨v, e, hv⟩
    · rcases old x hx with ⟨e, hu⟩ | ⟨j, n, -, e, hu⟩ <;> rw [e]
      · exact (hs x hx).fit hu
      · refine ((hs x hx).fitted j n).tested fun _ => ⟨n, ?_⟩
        have hj : j < (s.f.insn x).vals.length := by
          rcases hu with ⟨_, _, h3⟩ | ⟨_, h2⟩
          · exact (List.getElem?_eq_some_iff.1 h3).1
          · rw [h2]; exact Nat.lt_succ_self 1
        exact List.mem_set hj _
    · rw [e]; exact .assign hv
  · rcases new b hb x hx with h1 | h1
    · exact .inl h1
    · exact .inr h1.1

theorem prepare_solid {f : Fn} {R : List Nat} {d : BitVec 16} {s : Cg} {off : Int} (hr : Ready f R) (hn : Neat f R) (hF : Fits f R d)
    (ha : ∀ b ∈ R, ∀ x ∈ f.body b, (f.insn x).op = .allocarray → 0 < arrBytes (f.insn x) ∧ arrBytes (f.insn x) + 7 < 2 ^ 32) (e : prepare f R = .ok (s, off))
    (ht : Tight (fun y => Live f y ∨ f.next ≤ y) f) (hself : NoSelf f R) (hs : ∀ x, InR f R x → Sturdy L (f.insn x)) : Solid (L.1, true) (fun y => Live f y ∨ f.next ≤ y) R s.f := by
  have htight := prepare_tight e (P := fun y => Live f y ∨ f.next ≤ y) (fun b hb x hx => by
    have : Live f x := .inr (.inr ⟨b, hr.blocks b hb, hx⟩)
    exact ⟨hr.tidy.lt x this, .inl this⟩) (fun a ha => ⟨hr.tidy.lt a (.inr (.inl ha)), .inl (.inr (.inl ha))⟩) ht
  have hframe := prepare_frame hr hn hF ha e
  obtain ⟨s0, rn, H, N, M, e0, h, C, A, hl, hC, -⟩ := lower_ok hr
  have h0 := lower_ready hr hn h hl hC
  obtain ⟨k1, k2, k3, k4, k5, k6⟩ := lower_shape hr hF h hl hC
  obtain ⟨s1, off1, e1, hsf, -⟩ := C54_arrays h0 hr.nodup (lower_arrays hr hl hC ha)
  have H1 := arrays_holds h0 k1 k2 k3 k4 k5 k6 hr.nodup (lower_arrays hr hl hC ha) e1
  obtain ⟨s2, e2, -⟩ := C53_const H1.ready hr.nodup
  unfold prepare at e
  rw [e0, Out.ok_bind, e1, Out.ok_bind] at e
  dsimp only at e
  rw [e2, Out.ok_bind] at e
  cases e
  have hnext : f.next ≤ s0.f.next := Nat.le_trans (show f.next ≤ f.next + 10 by omega) hl.core.grown.next
  have old : ∀ x, InR f R x → (x ∈ C ∧ s0.f.insn x = { f.insn x with vals := [] }) ∨ s0.f.insn x = mapOps (renV rn) (f.insn x) := fun x hx => by
    have hxl : Live f x := .inr (.inr (hx.inBody hr.blocks))
    have e := init_insn (hr.tidy.lt x hxl)
    by_cases hxC : x ∈ C
    · exact .inl ⟨hxC, by rw [hl.core.done x hxC, e]⟩
    · exact .inr (by rw [hl.core.old x (init_live.2 (.inl hxl)) hxC, e])
  have cs : ∀ x, InR s0.f R x → InR f R x ∨ f.next ≤ x ∧ ∃ v, s0.f.insn x = mkAssign v ∧ OkV v := by
    rintro x ⟨b, hb, hx⟩
    rcases low_new hr.tidy hl hC hs (hr.blocks b hb) hx with hx | hx
    · exact .inl ⟨b, hb, hx⟩
    · exact .inr hx
  have self0 : NoSelf s0.f R := fun x hx hb hm => by
    rcases cs x hx with hx | ⟨-, v, e, -⟩
    · have hxl : x < f.next := hr.tidy.lt x (.inr (.inr (hx.inBody hr.blocks)))
      rcases old x hx with ⟨hxC, e⟩ | e
      · rw [e] at hb
        have hb : (f.insn x).op.binAlu = true := hb
        rw [((hC x).1 hxC).2] at hb
        cases hb
      · rw [e, mapOps_op] at hb
        rw [e, operands_mapOps] at hm
        obtain ⟨w, hw, ew⟩ := List.mem_map.1 hm
        cases w with
        | insn y =>
          have ew : rn y = x := by simpa [renV] using ew
          rcases hl.core.new y with h1 | h1
          · rw [h1] at ew
            subst ew
            exact hself y hx hb hw
          · have : f.next + 10 ≤ rn y := h1
            omega
        | const k c t b => cases ew
        | undef => cases ew
    · rw [e] at hb; cases hb
  have sturdy0 : ∀ x, InR s0.f R x → Sturdy L (s0.f.insn x) := fun x hx => by
    rcases cs x hx with hx | ⟨-, v, e, hv⟩
    · rcases old x hx with ⟨hxC, e⟩ | e <;> rw [e]
      · exact (hs x hx).call ((hC x).1 hxC).2
      · exact (hs x hx).map okV_ren (fun y => ⟨rn y, rfl⟩)
    · rw [e]; exact .assign hv
  obtain ⟨j1, j2, j3, j4⟩ := const_solid H1 hr.nodup e2 (by rw [hsf]; exact self0) (by rw [hsf]; exact sturdy0)
  rw [hsf] at j3 j4
  refine ⟨⟨htight, fun x hx => ?_, fun n hn' => .inr (Nat.le_trans hnext (Nat.le_trans j3 hn')), j1⟩, j2⟩
  obtain ⟨b, hb, hx⟩ := hx
  rw [hframe.allBbs] at hb
  have hb0 : b ∈ s0.f.allBbs := by rw [hl.core.grown.allBbs]; exact hb
  rcases j4 b hb0 x hx with hx | hx
  · rcases low_new hr.tidy hl hC hs hb hx with hx | hx
    · exact .inl (.inr (.inr ⟨b, hb, hx⟩))
    · exact .inr hx.1
  · exact .inr (Nat.le_trans hnext hx)

end Verif.Compile
