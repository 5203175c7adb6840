import Verif.Cg.ConstFn
import Verif.Cg.Fresh
/-!
# `spill_const` writes the new registers before they are read
-/
namespace Verif.Cg
open Verif Verif.IR Verif.Edit Verif.Loc
open Verif.Norm (VrPos)

variable {f : Fn} {R : List Nat} {pos0 : Nat → VrPos} {D : Nat → Prop} {s : Cg} {N : Nat → List Nat}

theorem flatMap_congr {α β : Type} {g h : α → List β} : ∀ {xs : List α}, (∀ x ∈ xs, g x = h x) → xs.flatMap g = xs.flatMap h
  | [], _ => rfl
  | x :: xs, e => by
    rw [List.flatMap_cons, List.flatMap_cons, e x List.mem_cons_self, flatMap_congr (fun y hy => e y (List.mem_cons_of_mem _ hy))]

/-- What an instruction other than a phi reads is the place of an operand that depends only on the opcode and the operands. -/
theorem reads_vals {l : Nat → Nat} {i : Insn} (h : i.op.binAlu = true ∨ i.op.condJmp = true) : reads l i = i.vals.flatMap (Loc.place l) := by
  obtain ⟨op, vals, phi, addr, addrOff, addrKind, aluOp, vrType, bb1, bb2, aux, immKind, imm64⟩ := i
  cases op <;> simp_all [reads, Norm.Op.binAlu, Norm.Op.condJmp]

theorem reads_congr {l k : Nat → Nat} {i : Insn} (h : ∀ y, .insn y ∈ operands i → l y = k y) : reads l i = reads k i := by
  have hp : ∀ v ∈ operands i, Loc.place l v = Loc.place k v := by
    intro v hv
    cases v with
    | insn y => simp [Loc.place, h y hv]
    | _ => rfl
  have hv : ∀ v ∈ i.vals, Loc.place l v = Loc.place k v := fun v h => hp v (by unfold operands; simp [h])
  have e1 : i.vals.flatMap (Loc.place l) = i.vals.flatMap (Loc.place k) := by
    rw [flatMap_congr hv]
  have e2 : i.vals.tail.flatMap (Loc.place l) = i.vals.tail.flatMap (Loc.place k) := by
    rw [flatMap_congr (fun v h => hv v (List.mem_of_mem_tail h))]
  have e3 : i.op = .loadraw ∨ i.op = .storeraw → Loc.place l i.addr = Loc.place k i.addr := fun ho => hp _ (by
    unfold operands; rcases ho with ho | ho <;> simp [ho, raw])
  unfold reads
  split
  · rfl
  · exact e2
  · rename_i ho; exact e3 (.inl ho)
  · rename_i ho; rw [e1, e3 (.inr ho)]
  · exact e1

theorem writes_congr {l k : Nat → Nat} {x : Nat} {i : Insn} (h : ∀ y, .insn y ∈ operands i → l y = k y) (hx : l x = k x) : writes l x i = writes k x i := by
  have hv : ∀ v ∈ i.vals, Loc.place l v = Loc.place k v := by
    intro v hv
    cases v with
    | insn y => simp [Loc.place, h y (by unfold operands; simp [hv])]
    | _ => rfl
  unfold writes
  rw [hx, flatMap_congr (g := Loc.place l) (h := Loc.place k) (fun v (h : v ∈ i.vals.head?.toList) => hv v (by
    cases e : i.vals with
    | nil => rw [e] at h; simp at h
    | cons a r => rw [e] at h; simp at h; simp [h]))]

/-- No virtual register is read before it is written. -/
theorem CInv.fresh (h : CInv f pos0 D s N) (hB : Base f R) (hF : FreshV ⟨f, pos0⟩) : FreshV s := by
  intro n hneed
  have inb : ∀ {b x : Nat}, x ∈ codeOf f b → x ∈ f.body b := fun hx => by rw [← phisOf_append f _]; exact List.mem_append_right _ hx
  have inp : ∀ {b x : Nat}, x ∈ phisOf f b → x ∈ f.body b := fun hx => by rw [← phisOf_append f _]; exact List.mem_append_left _ hx
  have lv : ∀ {b x : Nat}, b ∈ R → x ∈ f.body b → Live f x := fun hb hx => .inr (.inr ⟨_, hB.sub _ hb, hx⟩)
  have lt : ∀ {b x : Nat}, b ∈ R → x ∈ f.body b → x < f.next := fun hb hx => hB.tidy.lt _ (lv hb hx)
  have opl : ∀ {b x y : Nat}, b ∈ R → x ∈ f.body b → .insn y ∈ operands (f.insn x) → y < f.next := fun hb hx hy =>
    hB.tidy.lt _ (hB.tidy.closed _ _ (lv hb hx) (refs_pos.2 hy))
  have kl : ∀ {y : Nat}, y < f.next → places s.pos y = places pos0 y := fun hy => by unfold places; rw [h.pos _ hy]
  have hent := hB.flow.entry
  have eb : s.f.body s.f.entry = codeOf s.f f.entry := by
    rw [h.grown.entry]
    conv => lhs; rw [← phisOf_append s.f f.entry, (h.code hB (hB.sub _ hent)).1, hB.entry0]
    rfl
  have eb2 : f.body f.entry = codeOf f f.entry := by
    conv => lhs; rw [← phisOf_append f f.entry, hB.entry0]
    rfl
  rw [eb, h.grown.entry] at hneed
  have key := needed_grown (f := f) (g := s.f) (k := places s.pos) (q := virt n) (R := R) (H := fun _ => []) (N := N) (M := fun _ => []) (T := fun _ => []) hB.flow.succs
    h.grown.succs (fun b hb => by simpa using h.code hB (hB.sub b hb)) (F := fun b xs => Loc.Needed f (places pos0) (virt n) b xs) (fun b hb pre x xs ec hne => ?_)
    (fun b hb hne => ?_) hent hneed
  · refine hF n ?_
    show Loc.Needed f (places pos0) (virt n) f.entry (f.body f.entry)
    rw [eb2]
    exact key
  · have hx : x ∈ codeOf f b := by rw [ec]; simp
    have hxb := inb hx
    have hxl := lt hb hxb
    rcases h.cases hxl with ⟨e1, e2⟩ | ⟨j, m, -, hu, e2, n1, n2, n3, e1⟩
    · rw [e2] at hne
      have c := fun y hy => kl (opl hb hxb (y := y) hy)
      rcases hne with hr | ⟨hw, hr⟩
      · rw [e1, reads_congr c] at hr
        exact .read hr
      · rw [e1, writes_congr c (kl hxl)] at hw
        exact .skip hw hr
    · rw [e2] at hne
      obtain ⟨k, c, t, bb, e3⟩ := hu.const
      have e4 : s.f.insn m = mkAssign (.const k c t bb) := by rw [n3, List.getD_eq_getElem?_getD, e3]; rfl
      have pm : places s.pos m = virt m := virt_of (h.posN m n1 n2)
      rcases hne with hr | ⟨hw, hne⟩
      · rw [e4] at hr; simp [reads, mkAssign, Loc.place] at hr
      have hnm : n ≠ m := by
        rintro rfl
        rw [e4] at hw
        simp [writes, mkAssign, pm, Norm.Op.condJmp] at hw
      rcases hne with hr | ⟨hw, hr⟩
      · refine .read ?_
        rw [e1, reads_vals (i := fitted _ _ _) hu.op] at hr
        rw [reads_vals hu.op]
        obtain ⟨w, hw, hq⟩ := List.mem_flatMap.1 hr
        rcases List.mem_or_eq_of_mem_set hw with hw | rfl
        · refine List.mem_flatMap.2 ⟨w, hw, ?_⟩
          cases w with
          | insn y =>
            simp only [Loc.place, List.mem_singleton] at hq ⊢
            rw [hq, kl (opl hb hxb (by unfold operands; simp [hw]))]
          | _ => simp [Loc.place] at hq
        · simp only [Loc.place, List.mem_singleton, pm] at hq
          exact absurd (virt_inj hq) hnm
      · refine .skip ?_ hr
        rw [e1] at hw
        intro hm
        apply hw
        have : ∀ (l : Nat → Nat) (i : Insn), i.op.binAlu = true ∨ i.op.condJmp = true → writes l x i = if i.op.condJmp then [] else [l x] := by
          intro l i h
          obtain ⟨op, vals, phi, addr, addrOff, addrKind, aluOp, vrType, bb1, bb2, aux, immKind, imm64⟩ := i
          cases op <;> simp_all [writes, Norm.Op.binAlu, Norm.Op.condJmp]
        rw [this _ _ hu.op] at hm
        rw [this _ (fitted _ _ _) hu.op]
        show _ ∈ if (f.insn x).op.condJmp then [] else _
        rw [kl hxl]
        exact hm
  · obtain ⟨c, hc, ⟨x, hx, y, hy, e⟩ | ⟨hph, h1⟩⟩ := (hne : Leaves _ _ _ _ _ _ b)
    · have hcR := hB.flow.succs b hb c hc
      rw [(h.op (lt hcR (inp hx))).2.2.2] at hy
      have hyl : y < f.next := opl hcR (inp hx) (by
        unfold operands
        simp only [phisOf_phi hx, if_true, List.mem_append, List.mem_map]
        exact .inl (.inr ⟨_, hy, rfl⟩))
      exact .phi hc hx hy (by rw [e, kl hyl])
    · have hcR := hB.flow.succs b hb c hc
      exact .edge hc (fun x hx => by rw [← kl (lt hcR (inp hx))]; exact hph x hx) h1

end Verif.Cg
