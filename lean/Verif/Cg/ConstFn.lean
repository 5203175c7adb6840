import Verif.Cg.ConstInv
import Verif.Cg.LowerFn
import Verif.Loc.Alloc
/-!
# `spill_const` keeps the meaning
-/
namespace Verif.Cg
open Verif Verif.IR Verif.Edit Verif.Loc
open Verif.Norm (VrPos)
open Verif.Bpf (alu)

variable {f : Fn} {R : List Nat} {pos0 : Nat → VrPos} {D : Nat → Prop} {s : Cg} {N : Nat → List Nat}

theorem CInv.loop (hB : Base f R) : ∀ (xs : List Nat) (s : Cg) (D : Nat → Prop) (N : Nat → List Nat), CInv f pos0 D s N → (∀ x ∈ xs, InBody f x ∧ ¬ D x) → xs.Nodup →
    ∃ s' N', constsToRegs xs s = .ok s' ∧ CInv f pos0 (fun y => D y ∨ y ∈ xs) s' N'
  | [], s, D, N, h, _, _ => ⟨s, N, rfl, by
      have : (fun y => D y ∨ y ∈ ([] : List Nat)) = D := by funext y; simp
      rw [this]; exact h⟩
  | x :: xs, s, D, N, h, hx, hn => by
    rw [List.nodup_cons] at hn
    obtain ⟨⟨b, hb, hxb⟩, hD⟩ := hx x List.mem_cons_self
    obtain ⟨s1, N1, h1, h2⟩ := h.one hB hb hxb hD
    obtain ⟨s2, N2, h3, h4⟩ := CInv.loop hB xs s1 _ N1 h2 (fun y hy => ⟨(hx y (List.mem_cons_of_mem _ hy)).1, by
      rintro (h5 | rfl)
      · exact (hx y (List.mem_cons_of_mem _ hy)).2 h5
      · exact hn.1 hy⟩) hn.2
    refine ⟨s2, N2, by unfold constsToRegs; rw [h1, Out.ok_bind]; exact h3, ?_⟩
    have : (fun y => D y ∨ y ∈ x :: xs) = (fun y => (D y ∨ y = x) ∨ y ∈ xs) := by
      funext y; simp [or_assoc]
    rw [this]; exact h4

/-- An instruction is as before, or one constant has been moved. -/
theorem CInv.cases (h : CInv f pos0 D s N) {x : Nat} (hx : x < f.next) : (s.f.insn x = f.insn x ∧ N x = []) ∨
    ∃ j n, D x ∧ Unfit (f.insn x) j ∧ N x = [n] ∧ f.next ≤ n ∧ n < s.f.next ∧ s.f.insn n = mkAssign ((f.insn x).vals.getD j .undef) ∧ s.f.insn x = fitted (f.insn x) j n := by
  by_cases hD : D x
  · cases e : needsReg (f.insn x) with
    | none => exact .inl (h.same x hx (.inr (needsReg_none.1 e)))
    | some j =>
      obtain ⟨n, h1⟩ := h.moved x hD j (needsReg_iff.1 e)
      exact .inr ⟨j, n, hD, needsReg_iff.1 e, h1⟩
  · exact .inl (h.same x hx (.inl hD))

theorem CInv.op (h : CInv f pos0 D s N) {x : Nat} (hx : x < f.next) : (s.f.insn x).op = (f.insn x).op ∧ (s.f.insn x).bb1 = (f.insn x).bb1 ∧
    (s.f.insn x).bb2 = (f.insn x).bb2 ∧ (s.f.insn x).phi = (f.insn x).phi := by
  rcases h.cases hx with ⟨e, -⟩ | ⟨j, n, -, -, -, -, -, -, e⟩ <;> rw [e] <;> exact ⟨rfl, rfl, rfl, rfl⟩

theorem CInv.code (h : CInv f pos0 D s N) (hB : Base f R) {b : Nat} (hb : b ∈ f.allBbs) :
    phisOf s.f b = phisOf f b ∧ codeOf s.f b = ex N (fun _ => []) (codeOf f b) := by
  have := h.grown.code hb (fun x hx => (h.op (hB.tidy.lt x (.inr (.inr ⟨b, hb, hx⟩)))).1) (by simp) (fun x _ n hn => by
    obtain ⟨v, e, -⟩ := h.new n (h.newN x n hn).1 (h.newN x n hn).2
    rw [e]; simp [mkAssign]) (by simp)
  simpa using this

theorem bin_cases {W : World} {l : Nat → Nat} {x : Nat} {i : Insn} {τ τ1 : Loc.St} (ho : i.op.binAlu = true) (h : Loc.exec W l x i τ = some τ1) :
    ∃ v0 v1 o w y z, i.vals = [v0, v1] ∧ Flat.aluOp i.op = some o ∧ Flat.width i.aluOp = some w ∧ IR.eval (view l τ) v0 = some y ∧ IR.eval (view l τ) v1 = some z ∧
      τ1 = τ.set (l x) (alu w o y z) := by
  have hne : i.op ≠ .alloc ∧ i.op ≠ .call ∧ i.op ≠ .store ∧ i.op ≠ .storeraw := by
    refine ⟨?_, ?_, ?_, ?_⟩ <;> (intro e; rw [e] at ho; cases ho)
  rw [exec_other hne.1 hne.2.1 hne.2.2.1 hne.2.2.2] at h
  have : IR.exec W x i (view l τ) = match i.vals with
    | [v0, v1] => do
      let o ← Flat.aluOp i.op
      let w ← Flat.width i.aluOp
      let y ← eval (view l τ) v0
      let z ← eval (view l τ) v1
      some ((view l τ).set x (alu w o y z))
    | _ => none := by
    obtain ⟨op, vals, phi, addr, addrOff, addrKind, aluOp, vrType, bb1, bb2, aux, immKind, imm64⟩ := i
    dsimp only at ho ⊢
    cases op <;> simp [Norm.Op.binAlu] at ho <;> rfl
  rw [this] at h
  rcases ev : i.vals with _ | ⟨v0, _ | ⟨v1, _ | ⟨_, _⟩⟩⟩ <;> rw [ev] at h <;> simp only [Option.map_none, Option.bind_eq_bind, Option.bind_eq_some_iff,
    Option.map_eq_some_iff, reduceCtorEq] at h
  obtain ⟨a, ⟨σ, ⟨o, h1, w, h2, y, h3, z, h4, h5⟩, h6⟩, h7⟩ := h
  refine ⟨v0, v1, o, w, y, z, rfl, h1, h2, h3, h4, ?_⟩
  rw [← h7, ← h6, ← Option.some.inj h5]
  simp [IR.St.set]

theorem bin_exec {W : World} {l : Nat → Nat} {x : Nat} {i : Insn} {τ : Loc.St} (ho : i.op.binAlu = true) {v0 v1 : Val} {o w y z} (h1 : i.vals = [v0, v1])
    (h2 : Flat.aluOp i.op = some o) (h3 : Flat.width i.aluOp = some w) (h4 : IR.eval (view l τ) v0 = some y) (h5 : IR.eval (view l τ) v1 = some z) :
    Loc.exec W l x i τ = some (τ.set (l x) (alu w o y z)) := by
  have hne : i.op ≠ .alloc ∧ i.op ≠ .call ∧ i.op ≠ .store ∧ i.op ≠ .storeraw := by
    refine ⟨?_, ?_, ?_, ?_⟩ <;> (intro e; rw [e] at ho; cases ho)
  rw [exec_other hne.1 hne.2.1 hne.2.2.1 hne.2.2.2]
  obtain ⟨op, vals, phi, addr, addrOff, addrKind, aluOp, vrType, bb1, bb2, aux, immKind, imm64⟩ := i
  dsimp only at ho h1 h2 h3 ⊢
  subst h1
  cases op <;> simp [Norm.Op.binAlu] at ho <;> simp [IR.exec, h2, h3, h4, h5, IR.St.set]

/-- The places of the new instructions. -/
def NewC (f : Fn) (q : Nat) : Prop := ∃ n, f.next ≤ n ∧ q = virt n

theorem CInv.keeps (h : CInv f pos0 D s N) (hB : Base f R) (W : World) (τ0 : Loc.St) :
    Loc.Keeps W f (places pos0) s.f (places s.pos) τ0 := by
  have inb : ∀ {b x : Nat}, x ∈ codeOf f b → x ∈ f.body b := fun hx => by rw [← phisOf_append f _]; exact List.mem_append_right _ hx
  have inp : ∀ {b x : Nat}, x ∈ phisOf f b → x ∈ f.body b := fun hx => by rw [← phisOf_append f _]; exact List.mem_append_left _ hx
  have lv : ∀ {b x : Nat}, b ∈ R → x ∈ f.body b → Live f x := fun hb hx => .inr (.inr ⟨_, hB.sub _ hb, hx⟩)
  have lt : ∀ {b x : Nat}, b ∈ R → x ∈ f.body b → x < f.next := fun hb hx => hB.tidy.lt _ (lv hb hx)
  have opl : ∀ {b x y : Nat}, b ∈ R → x ∈ f.body b → .insn y ∈ operands (f.insn x) → y < f.next := fun hb hx hy =>
    hB.tidy.lt _ (hB.tidy.closed _ _ (lv hb hx) (refs_pos.2 hy))
  have kl : ∀ {y : Nat}, y < f.next → places s.pos y = places pos0 y := fun hy => by unfold places; rw [h.pos _ hy]
  have old : ∀ {y : Nat}, y < f.next → ¬ NewC f (places pos0 y) := by
    rintro y hy ⟨n, h1, h2⟩
    have := (places_virt h2).1
    omega
  have pl : ∀ {b x : Nat} {w : Val} {q : Nat}, b ∈ R → x ∈ f.body b → w ∈ operands (f.insn x) → q ∈ Loc.place (places pos0) w → ¬ NewC f q := by
    intro b x w q hb hx hw hq
    cases w with
    | insn y =>
      simp only [Loc.place, List.mem_singleton] at hq
      subst hq
      exact old (opl hb hx hw)
    | const => simp [Loc.place] at hq
    | undef => simp [Loc.place] at hq
  have ev : ∀ {b x : Nat} {w : Val} {τ : Loc.St}, b ∈ R → x ∈ f.body b → w ∈ operands (f.insn x) → IR.eval (view (places s.pos) τ) w = IR.eval (view (places pos0) τ) w := by
    intro b x w τ hb hx hw
    cases w with
    | insn y =>
      show some (τ.cell _) = some (τ.cell _)
      rw [kl (opl hb hx hw)]
    | const => rfl
    | undef => rfl
  -- the constant of a moved operand
  have mv : ∀ {x j n : Nat} {τ : Loc.St} {b : Nat} {r : List Nat}, Unfit (f.insn x) j → f.next ≤ n → n < s.f.next → s.f.insn n = mkAssign ((f.insn x).vals.getD j .undef) →
      ∃ k c t bb, (f.insn x).vals[j]? = some (.const k c t bb) ∧ Leads W s.f (places s.pos) b (n :: r) τ b r (τ.set (virt n) c) := by
    intro x j n τ b r hu h1 h2 h3
    obtain ⟨k, c, t, bb, e⟩ := hu.const
    refine ⟨k, c, t, bb, e, .plain (by rw [h3]; rfl) ?_⟩
    have : places s.pos n = virt n := virt_of (h.posN n h1 h2)
    rw [← this]
    refine RemPhi.exec_assign (v := .const k c t bb) (by rw [h3]; rfl) (by rw [h3]; simp [mkAssign]) ?_ rfl
    rw [h3, List.getD_eq_getElem?_getD, e]
    rfl
  have nw : ∀ {n : Nat}, f.next ≤ n → NewC f (virt n) := fun h => ⟨_, h, rfl⟩
  -- the other operands
  have ev2 : ∀ {b x n : Nat} {w : Val} {c : BitVec 64} {τ : Loc.St}, b ∈ R → x ∈ f.body b → w ∈ operands (f.insn x) → f.next ≤ n →
      IR.eval (view (places s.pos) (τ.set (virt n) c)) w = IR.eval (view (places pos0) τ) w := by
    intro b x n w c τ hb hx hw hn
    rw [ev hb hx hw]
    exact eval_off (New := NewC f) (.set (nw hn)) (fun q hq => pl hb hx hw hq)
  have evn : ∀ {n : Nat} {c : BitVec 64} {τ : Loc.St}, f.next ≤ n → n < s.f.next → IR.eval (view (places s.pos) (τ.set (virt n) c)) (.insn n) = some c := by
    intro n c τ h1 h2
    show some ((τ.set (virt n) c).cell (places s.pos n)) = _
    rw [virt_of (h.posN n h1 h2)]
    simp [Loc.St.set]
  refine feed_keeps (New := NewC f) (P := fun _ _ _ => True) (E := fun _ _ => True) (H := fun _ => []) (N := N) (M := fun _ => []) (T := fun _ => []) hB.flow
    ⟨h.grown.entry, h.grown.succs, fun b hb => (h.code hB (hB.sub b hb)).1, fun b hb => by simpa using (h.code hB (hB.sub b hb)).2, fun b hb x hx => kl (lt hb (inp hx)),
      fun b hb x hx q hq => ?_, fun b hb x hx o ho q hq => ?_, ?_, ?_, fun b hb τ _ => ⟨τ, .rfl, .rfl, trivial⟩, fun b hb t ht τ _ x hx => ?_,
      fun b hb t ht τ e tail _ _ => ⟨_, .rfl, .rfl, trivial⟩⟩ hB.entry0 (fun tail => ⟨τ0, .rfl, .rfl, trivial⟩)
  · rcases reads_refs hq with h1 | ⟨y, rfl, h1⟩
    · rintro ⟨n, -, e⟩
      have := virt_big n
      omega
    · exact old (opl hb (inb hx) (refs_pos.1 h1))
  · refine pl (w := o.2) hb (inp hx) ?_ hq
    unfold operands
    simp only [phisOf_phi hx, if_true, List.mem_append, List.mem_map]
    exact .inl (.inr ⟨o, ho, rfl⟩)
  · intro b hb pre x rest ec hc τ τ1 tail _ he
    have hx : x ∈ codeOf f b := by rw [ec]; simp
    have hxb := inb hx
    rcases h.cases (lt hb hxb) with ⟨e1, e2⟩ | ⟨j, n, -, hu, e2, n1, n2, n3, e1⟩
    · have hs : Sub (fun y => y < f.next) id (places pos0) (places s.pos) id := ⟨fun _ _ _ _ => rfl, rfl, fun y hy => ⟨y, rfl, kl hy⟩⟩
      rcases exec_two (W := W) hs (x := x) (i := f.insn x) (τ := τ) (τ' := τ) (fun v hv y e => opl hb hxb (e ▸ hv)) hc (kl (lt hb hxb)) (fun _ _ => rfl) rfl rfl
        (fun _ _ => rfl) (fun _ _ _ => rfl) with ⟨h1, _⟩ | ⟨τa, τb, h1, h2, h3⟩
      · rw [h1] at he; cases he
      · rw [h1] at he
        cases he
        rw [Loc.mapOps_id] at h2
        refine ⟨τb, ?_, ⟨fun q hq => ?_, h3.mem, h3.trace⟩, trivial⟩
        · rw [e2]
          exact Leads1.mid (d := b) (t := [] ++ tail) (τ'' := τb) .rfl (by rw [List.nil_append, Loc.step_plain (by rw [e1]; exact hc), e1, h2]) .rfl
        · by_cases hm : q ∈ Loc.writes (places pos0) x (f.insn x)
          · exact h3.new q hm
          · rw [h3.old q hm]
            exact h3.old' q (by simpa using hm)
    · have ho : (f.insn x).op.binAlu = true := by
        rcases hu.op with h1 | h1
        · exact h1
        · simp [Loc.control, h1] at hc
      have hj : j = 0 := by
        rcases hu with ⟨_, _, _⟩ | ⟨h1, _⟩
        · rfl
        · simp [Loc.control, h1] at hc
      subst hj
      obtain ⟨k, c, t, bb, e3, hl⟩ := mv (τ := τ) (b := b) (r := x :: ([] ++ tail)) hu n1 n2 n3
      obtain ⟨v0, v1, o, w, y, z, b1, b2, b3, b4, b5, rfl⟩ := bin_cases ho he
      rw [b1] at e3
      have e3 : v0 = .const k c t bb := by simpa using e3
      have hy : y = c := by rw [e3] at b4; exact (Option.some.inj b4).symm
      subst hy
      have hex := bin_exec (W := W) (l := places s.pos) (x := x) (i := s.f.insn x) (τ := τ.set (virt n) y) (v0 := .insn n) (v1 := v1) (o := o) (w := w) (y := y) (z := z)
        (by rw [e1]; exact ho) (by rw [e1]; show (f.insn x).vals.set 0 _ = _; rw [b1]; rfl) (by rw [e1]; exact b2) (by rw [e1]; exact b3) (evn n1 n2)
        (by rw [ev2 hb hxb (by unfold operands; simp [b1]) n1]; exact b5)
      refine ⟨(τ.set (virt n) y).set (places s.pos x) (alu w o y z), ?_, ?_, trivial⟩
      · rw [e2]
        exact Leads1.mid (d := b) (t := [] ++ tail) hl (by rw [Loc.step_plain (by rw [e1]; exact hc), hex]) .rfl
      · rw [kl (lt hb hxb)]
        refine ⟨fun q hq => ?_, rfl, rfl⟩
        have : q ≠ virt n := fun e => hq (e ▸ nw n1)
        simp [Loc.St.set, this]
  · intro b hb pre x ec hc hnp τ tail _
    have hx : x ∈ codeOf f b := by rw [ec]; simp
    have hxb := inb hx
    rcases h.cases (lt hb hxb) with ⟨e1, e2⟩ | ⟨j, n, -, hu, e2, n1, n2, n3, e1⟩
    · refine ⟨τ, by rw [e2]; exact .rfl, .rfl, trivial, by rw [e1], by rw [e1], by rw [e1], by rw [e1], ?_⟩
      rw [e1]
      exact List.map_congr_left (fun w hw => ev hb hxb (by unfold operands; simp [hw]))
    · obtain ⟨k, c, t, bb, e3, hl⟩ := mv (τ := τ) (b := b) (r := x :: tail) hu n1 n2 n3
      refine ⟨_, by rw [e2]; exact hl, .set (nw n1), trivial, by rw [e1]; rfl, by rw [e1]; rfl, by rw [e1]; rfl, by rw [e1]; rfl, ?_⟩
      rw [e1]
      refine List.ext_getElem? (fun m => ?_)
      show (((f.insn x).vals.set j (.insn n)).map _)[m]? = _
      rw [List.getElem?_map, List.getElem?_map, List.getElem?_set]
      by_cases em : j = m
      · subst em
        have hlen : j < (f.insn x).vals.length := by
          rcases Nat.lt_or_ge j (f.insn x).vals.length with h1 | h1
          · exact h1
          · rw [List.getElem?_eq_none h1] at e3; cases e3
        rw [if_pos rfl, if_pos hlen, e3]
        show some (IR.eval _ (.insn n)) = _
        rw [evn n1 n2]
        rfl
      · rw [if_neg em]
        cases e4 : (f.insn x).vals[m]? with
        | none => rfl
        | some w =>
          show some (IR.eval _ w) = some (IR.eval _ w)
          have hw : w ∈ operands (f.insn x) := by unfold operands; simp [List.mem_of_getElem? e4]
          rw [ev hb hxb hw]
  · have htR := hB.flow.succs b hb t ht
    have hph := phisOf_phi hx
    have hxb := inp hx
    have : s.f.insn x = f.insn x := by
      rcases h.cases (lt htR hxb) with ⟨e1, -⟩ | ⟨j, n, -, hu, -⟩
      · exact e1
      · exact absurd hph hu.notPhi.1
    rw [this]
    unfold phiVal
    cases e : (f.insn x).phi.find? (fun o => o.1 == b) with
    | none => rfl
    | some o =>
      refine ev htR hxb ?_
      unfold operands
      simp only [hph, if_true, List.mem_append, List.mem_map]
      exact .inl (.inr ⟨o, List.mem_of_find?_eq_some e, rfl⟩)

/-- Instructions of the new function. -/
theorem CInv.mem (h : CInv f pos0 D s N) {b x : Nat} (hb : b ∈ f.allBbs) (hx : x ∈ s.f.body b) : x ∈ f.body b ∨ (f.next ≤ x ∧ x < s.f.next) := by
  rw [h.grown.body b hb] at hx
  simp only [List.nil_append, List.append_nil, List.mem_append] at hx
  rcases hx with hx | hx
  · exact .inl (by rw [← phisOf_append f b]; exact List.mem_append_left _ hx)
  · obtain ⟨y, hy, hx⟩ := List.mem_flatMap.1 hx
    rcases List.mem_append.1 hx with hx | hx
    · exact .inr (h.newN y x hx)
    · rw [List.mem_singleton] at hx
      subst hx
      exact .inl (by rw [← phisOf_append f b]; exact List.mem_append_right _ hy)

theorem CInv.base (h : CInv f pos0 D s N) (hB : Base f R) : Base s.f R := by
  have bbs := h.grown.allBbs
  have lt : ∀ {b x : Nat}, b ∈ f.allBbs → x ∈ f.body b → x < f.next := fun hb hx => hB.tidy.lt _ (.inr (.inr ⟨_, hb, hx⟩))
  have newi : ∀ {x : Nat}, (f.next ≤ x ∧ x < s.f.next) → ∃ v, s.f.insn x = mkAssign v := fun hx => by
    obtain ⟨v, e, -⟩ := h.new _ hx.1 hx.2; exact ⟨v, e⟩
  refine ⟨h.grown.tidy, ⟨by rw [h.grown.entry]; exact hB.flow.entry, by rw [h.grown.succs]; exact hB.flow.succs, fun b hb x hx ho => ?_, fun b hb x hx ho => ?_,
    fun b hb pre z r e hc hnp => ?_⟩, fun b hb => by rw [bbs]; exact hB.sub b hb, ?_, h.cover, h.users, fun b hb x hx => ?_, fun x hx ho => ?_, fun b hb x hx ho => ?_,
    fun x hx o ho => ?_, fun x hx ho => ?_⟩
  · rw [h.grown.succs]
    rcases h.mem (hB.sub b hb) hx with hx | hx
    · have := h.op (lt (hB.sub b hb) hx)
      rw [this.2.1]
      exact hB.flow.ja b hb x hx (by rw [← this.1]; exact ho)
    · obtain ⟨v, e⟩ := newi hx; rw [e] at ho; cases ho
  · rw [h.grown.succs]
    rcases h.mem (hB.sub b hb) hx with hx | hx
    · have := h.op (lt (hB.sub b hb) hx)
      rw [this.2.1, this.2.2.1]
      exact hB.flow.cond b hb x hx (by rw [← this.1]; exact ho)
    · obtain ⟨v, e⟩ := newi hx; rw [e] at ho; cases ho
  · have hbb := hB.sub b hb
    rcases h.mem hbb (x := z) (by rw [e]; simp) with hz | hz
    · rw [(h.op (lt hbb hz)).1] at hc hnp
      have hzc : z ∈ codeOf f b := by
        rw [← phisOf_append f b] at hz
        rcases List.mem_append.1 hz with hz | hz
        · exact absurd (phisOf_phi hz) hnp
        · exact hz
      obtain ⟨A, B, eA⟩ := List.append_of_mem hzc
      have eB : B = [] := hB.flow.last b hb (phisOf f b ++ A) z B (by rw [← phisOf_append f b, eA, List.append_assoc]) hc hnp
      subst eB
      have hat := h.grown.at hbb eA
      have hnd := h.grown.tidy.nodup b (by rw [bbs]; exact hbb)
      have hz2 : z ∉ r := by rw [e] at hnd; exact (nodup_mid hnd).2
      rcases List.eq_nil_or_concat r with er | ⟨t, y, er⟩
      · exact er
      · exfalso
        have e3 : pre ++ z :: r = (pre ++ z :: t) ++ [y] := by rw [er]; simp
        rw [e, e3] at hat
        have := congrArg List.getLast? hat
        simp only [ex, List.flatMap_nil, List.append_nil, List.getLast?_append, List.getLast?_singleton, Option.some_or] at this
        rw [er] at hz2
        apply hz2
        rw [← Option.some.inj this]; simp
    · obtain ⟨v, e1⟩ := newi hz; rw [e1] at hc; cases hc
  · rw [h.grown.entry, (h.code hB (hB.sub _ hB.flow.entry)).1]; exact hB.entry0
  · rw [bbs] at hb
    rw [(h.code hB hb).2] at hx
    obtain ⟨y, hy, hx⟩ := List.mem_flatMap.1 hx
    rcases List.mem_append.1 hx with hx | hx
    · obtain ⟨v, e⟩ := newi (h.newN y x hx); rw [e]; simp [mkAssign]
    · rw [List.mem_singleton] at hx
      subst hx
      rw [(h.op (lt hb (by rw [← phisOf_append f b]; exact List.mem_append_right _ hy))).1]
      exact hB.front b hb x hy
  · obtain ⟨b, hb, hx⟩ := hx
    rw [bbs] at hb
    rcases h.mem hb hx with hx | hx
    · have hop := (h.op (lt hb hx)).1
      rw [hop] at ho
      obtain ⟨a, r, e1, e2⟩ := hB.access x ⟨b, hb, hx⟩ ho
      have haL : Live f a := hB.tidy.closed x a (.inr (.inr ⟨b, hb, hx⟩)) (refs_pos.2 (by unfold operands; simp [e1]))
      refine ⟨a, r, ?_, by rw [(h.op (hB.tidy.lt a haL)).1]; exact e2⟩
      rcases h.cases (lt hb hx) with ⟨e, -⟩ | ⟨j, n, -, hu, -⟩
      · rw [e]; exact e1
      · rcases hu.op with h1 | h1 <;> rcases ho with h2 | h2 <;> rw [h2] at h1 <;> cases h1
    · obtain ⟨v, e⟩ := newi hx; rw [e] at ho; simp [mkAssign] at ho
  · have hbR := hb
    have hb := hB.sub b hb
    rw [(h.code hB hb).2] at hx
    obtain ⟨y, hy, hx⟩ := List.mem_flatMap.1 hx
    rcases List.mem_append.1 hx with hx | hx
    · obtain ⟨v, e⟩ := newi (h.newN y x hx); rw [e] at ho; simp [mkAssign] at ho
    · rw [List.mem_singleton] at hx
      subst hx
      have hxl := lt hb (by rw [← phisOf_append f b]; exact List.mem_append_right _ hy)
      rw [(h.op hxl).1] at ho
      rcases h.cases hxl with ⟨e, -⟩ | ⟨j, n, -, hu, -⟩
      · rw [e]; exact hB.raws b hbR x hy ho
      · rcases hu.op with h1 | h1 <;> rcases ho with h2 | h2 <;> rw [h2] at h1 <;> cases h1
  · obtain ⟨b, hb, hx⟩ := hx
    rw [bbs] at hb ⊢
    rcases h.mem hb hx with hx | hx
    · rw [(h.op (lt hb hx)).2.2.2] at ho
      exact hB.labels x ⟨b, hb, hx⟩ o ho
    · obtain ⟨v, e⟩ := newi hx; rw [e] at ho; simp [mkAssign] at ho
  · obtain ⟨b, hb, hx⟩ := hx
    rw [bbs] at hb
    rcases h.mem hb hx with hx | hx
    · rw [(h.op (lt hb hx)).1] at ho
      rcases h.cases (lt hb hx) with ⟨e, -⟩ | ⟨j, n, -, hu, -⟩
      · rw [e]; exact hB.phiVals x ⟨b, hb, hx⟩ ho
      · exact absurd ho hu.notPhi.1
    · obtain ⟨v, e⟩ := newi hx; rw [e] at ho; simp [mkAssign] at ho

end Verif.Cg
