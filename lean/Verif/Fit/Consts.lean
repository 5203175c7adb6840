import Verif.Fit.Regs
/-!
# Machine registers that wait to be read, after constants have been moved to registers
-/
namespace Verif.Fit
open Verif Verif.IR Verif.Edit Verif.Cg Verif.Loc
open Verif.Norm (VrPos Reg Op)

theorem place_congr {l k : Nat → Nat} {v : Val} (h : ∀ y, v = .insn y → l y = k y) : place l v = place k v := by
  cases v with
  | insn y => simp only [place]; rw [h y rfl]
  | _ => rfl

theorem flatMap_place {l k : Nat → Nat} : ∀ {vs : List Val}, (∀ y, Val.insn y ∈ vs → l y = k y) → vs.flatMap (place l) = vs.flatMap (place k)
  | [], _ => rfl
  | v :: vs, h => by
    rw [List.flatMap_cons, List.flatMap_cons, flatMap_place (fun y hy => h y (List.mem_cons_of_mem _ hy)), place_congr (fun y e => h y (by rw [e]; simp))]

theorem reads_congr {l k : Nat → Nat} {i : Insn} (h : ∀ y, Val.insn y ∈ operands i → l y = k y) : reads l i = reads k i := by
  have hv : ∀ y, Val.insn y ∈ i.vals → l y = k y := fun y hy => h y (List.mem_append_left _ (List.mem_append_left _ hy))
  have ha : raw i.op = true → place l i.addr = place k i.addr := fun hr => place_congr fun y e => h y (by
    unfold operands
    refine List.mem_append_right _ ?_
    rw [if_pos hr, e]; simp)
  unfold reads
  split
  · rfl
  · exact flatMap_place fun y hy => hv y (List.mem_of_mem_tail hy)
  · rename_i e; exact ha (by rw [e]; rfl)
  · rename_i e; rw [flatMap_place hv, ha (by rw [e]; rfl)]
  · exact flatMap_place hv

theorem writes_congr {l k : Nat → Nat} {x : Nat} {i : Insn} (hx : l x = k x) (h : ∀ y, Val.insn y ∈ operands i → l y = k y) : writes l x i = writes k x i := by
  have hv : ∀ y, Val.insn y ∈ i.vals → l y = k y := fun y hy => h y (List.mem_append_left _ (List.mem_append_left _ hy))
  unfold writes
  split
  · rfl
  · refine flatMap_place fun y hy => hv y ?_
    rw [Option.mem_toList] at hy
    exact List.mem_of_mem_head? hy
  all_goals first | rfl | rw [hx]

/-- Adding calm instructions in front of calm instructions. -/
theorem linked_ex {f : Fn} {l : Nat → Nat} {P : Nat → Nat → Prop} {K : Nat → List Nat} : ∀ (L : List Nat), Linked P L → (∀ x ∈ L, ∀ y ∈ L, P x y → Passes f l x y) →
    (∀ x ∈ L, K x = [] ∨ ∃ n, K x = [n] ∧ Calm f l n ∧ Calm f l x) → Linked (Passes f l) (ex K (fun _ => []) L) ∧
      ∀ z B, ex K (fun _ => []) L = z :: B → Calm f l z ∨ ∃ C, L = z :: C
  | [], _, _, _ => ⟨trivial, fun z B e => by cases e⟩
  | x :: L, hL, hP, hK => by
    obtain ⟨k1, k2⟩ := linked_ex (f := f) (l := l) (K := K) L hL.2 (fun a ha b hb => hP a (List.mem_cons_of_mem _ ha) b (List.mem_cons_of_mem _ hb))
      (fun a ha => hK a (List.mem_cons_of_mem _ ha))
    have h0 : Linked (Passes f l) (x :: ex K (fun _ => []) L) := by
      refine ⟨fun y B e => ?_, k1⟩
      rcases k2 y B e with h | ⟨C, h⟩
      · exact calm_passes h
      · exact hP x List.mem_cons_self y (by rw [h]; simp) (hL.1 y C h)
    rw [ex_cons, List.nil_append]
    rcases hK x List.mem_cons_self with h | ⟨n, h, h1, h2⟩
    · rw [h, List.nil_append]
      exact ⟨h0, fun z B e => by cases e; exact .inr ⟨_, rfl⟩⟩
    · rw [h, List.singleton_append]
      refine ⟨⟨fun y B e => ?_, h0⟩, fun z B e => ?_⟩
      · cases e; exact calm_passes h2
      · cases e; exact .inl h1

theorem const_tame {s s' : Cg} {R : List Nat} {D : Nat → Prop} {K : Nat → List Nat} (hB : Base s.f R) (hI : CInv s.f s.pos D s' K) (ht : Tame s.f R (places s.pos))
    (hcalm : ∀ b ∈ R, ∀ x ∈ codeOf s.f b, (s.f.insn x).op.binAlu = true ∨ (s.f.insn x).op.condJmp = true → Calm s.f (places s.pos) x) : Tame s'.f R (places s'.pos) := by
  have inc : ∀ {b x}, x ∈ codeOf s.f b → x ∈ s.f.body b := fun hx => by rw [← phisOf_append s.f _]; exact List.mem_append_right _ hx
  have inp : ∀ {b x}, x ∈ phisOf s.f b → x ∈ s.f.body b := fun hx => by rw [← phisOf_append s.f _]; exact List.mem_append_left _ hx
  have lv : ∀ {b x}, b ∈ R → x ∈ s.f.body b → Live s.f x := fun hb hx => .inr (.inr ⟨_, hB.sub _ hb, hx⟩)
  have lt : ∀ {b x}, b ∈ R → x ∈ s.f.body b → x < s.f.next := fun hb hx => hB.tidy.lt _ (lv hb hx)
  have opl : ∀ {b x y}, b ∈ R → x ∈ s.f.body b → .insn y ∈ operands (s.f.insn x) → y < s.f.next := fun hb hx hy => hB.tidy.lt _ (hB.tidy.closed _ _ (lv hb hx) (refs_pos.2 hy))
  have pl : ∀ {y}, y < s.f.next → places s'.pos y = places s.pos y := fun hy => by unfold places; rw [hI.pos _ hy]
  have pn : ∀ {n}, s.f.next ≤ n → n < s'.f.next → places s'.pos n = virt n := fun h1 h2 => places_free (by rw [hI.posN _ h1 h2]; rfl)
  have same : ∀ {b x}, b ∈ R → x ∈ s.f.body b → s'.f.insn x = s.f.insn x → (∀ r, Awaits s'.f (places s'.pos) x r ↔ Awaits s.f (places s.pos) x r) ∧
      writes (places s'.pos) x (s'.f.insn x) = writes (places s.pos) x (s.f.insn x) := by
    intro b x hb hx e
    unfold Awaits
    rw [e, reads_congr (fun y hy => pl (opl hb hx hy)), pl (lt hb hx), writes_congr (pl (lt hb hx)) (fun y hy => pl (opl hb hx hy))]
    exact ⟨fun _ => Iff.rfl, rfl⟩
  have moved : ∀ {b x j n}, b ∈ R → x ∈ codeOf s.f b → Unfit (s.f.insn x) j → s.f.next ≤ n → n < s'.f.next → s'.f.insn x = fitted (s.f.insn x) j n →
      Calm s'.f (places s'.pos) x ∧ writes (places s'.pos) x (s'.f.insn x) = writes (places s.pos) x (s.f.insn x) := by
    intro b x j n hb hx hu h1 h2 e
    have hop : (fitted (s.f.insn x) j n).op = (s.f.insn x).op := rfl
    have hc : (s.f.insn x).op ≠ .call := by intro e; rcases hu.op with h | h <;> rw [e] at h <;> cases h
    have hst : (s.f.insn x).op ≠ .store := by intro e; rcases hu.op with h | h <;> rw [e] at h <;> cases h
    have hc0 := hcalm b hb x hx hu.op
    constructor
    · rintro r hr (ha | ha)
      · rw [e] at ha
        have hrd : reads (places s'.pos) (fitted (s.f.insn x) j n) = ((s.f.insn x).vals.set j (.insn n)).flatMap (place (places s'.pos)) := by
          have h1 := hu.notPhi.2.1
          have h2 := hu.notPhi.2.2
          unfold reads fitted
          dsimp only
          split <;> first | rfl | (rename_i e; first | exact absurd e hc | exact absurd e hst | exact absurd e h1 | exact absurd e h2)
        have hrd0 : reads (places s.pos) (s.f.insn x) = (s.f.insn x).vals.flatMap (place (places s.pos)) := by
          have h1 := hu.notPhi.2.1
          have h2 := hu.notPhi.2.2
          unfold reads
          split <;> first | rfl | (rename_i e; first | exact absurd e hc | exact absurd e hst | exact absurd e h1 | exact absurd e h2)
        rw [hrd] at ha
        obtain ⟨v, hv, hr2⟩ := List.mem_flatMap.1 ha
        rcases List.mem_or_eq_of_mem_set hv with hv | hv
        · refine hc0 r hr (.inl ?_)
          rw [hrd0]
          refine List.mem_flatMap.2 ⟨v, hv, ?_⟩
          rw [place_congr (k := places s'.pos)]
          · exact hr2
          · intro y ey
            exact (pl (opl hb (inc hx) (by unfold operands; exact List.mem_append_left _ (List.mem_append_left _ (ey ▸ hv))))).symm
        · rw [hv, place, List.mem_singleton, pn h1 h2] at hr2
          have := Cg.virt_big n
          omega
      · rw [pl (lt hb (inc hx))] at ha
        exact hc0 r hr (.inr ha)
    · rw [e]
      unfold writes
      rw [hop]
      split <;> first | rfl | (rename_i e; exact absurd e hst) | rw [pl (lt hb (inc hx))]
  have hcases : ∀ {b x}, b ∈ R → x ∈ codeOf s.f b → (s'.f.insn x = s.f.insn x ∧ K x = []) ∨
      ∃ n, K x = [n] ∧ Calm s'.f (places s'.pos) n ∧ Calm s'.f (places s'.pos) x ∧ Calm s.f (places s.pos) x ∧
        writes (places s'.pos) x (s'.f.insn x) = writes (places s.pos) x (s.f.insn x) := by
    intro b x hb hx
    rcases hI.cases (lt hb (inc hx)) with h | ⟨j, n, -, hu, eN, n1, n2, e3, e4⟩
    · exact .inl h
    · obtain ⟨h1, h2⟩ := moved hb hx hu n1 n2 e4
      refine .inr ⟨n, eN, ?_, h1, hcalm b hb x hx hu.op, h2⟩
      obtain ⟨k, c, t, bb, ev⟩ := hu.const
      have : (s.f.insn x).vals.getD j .undef = .const k c t bb := by rw [List.getD_eq_getElem?_getD, ev]; rfl
      rw [this] at e3
      rintro r hr (ha | ha)
      · rw [e3, reads_assign] at ha; cases ha
      · rw [pn n1 n2] at ha
        have := Cg.virt_big n
        omega
  have step : ∀ b ∈ R, ∀ x ∈ codeOf s.f b, ∀ y ∈ codeOf s.f b, Passes s.f (places s.pos) x y → Passes s'.f (places s'.pos) x y := by
    intro b hb x hx y hy h r hr ha
    have ha' : Awaits s.f (places s.pos) y r := by
      rcases hcases hb hy with ⟨e, -⟩ | ⟨n, -, -, h2, -⟩
      · exact ((same hb (inc hy) e).1 r).1 ha
      · exact absurd ha (h2 r hr)
    obtain ⟨h1, h2⟩ := h r hr ha'
    rcases hcases hb hx with ⟨e, -⟩ | ⟨n, -, -, -, h4, h5⟩
    · obtain ⟨h6, h7⟩ := same hb (inc hx) e
      rw [h7, h6]
      exact ⟨h1, h2⟩
    · rw [h5]
      exact ⟨.inl (h1.resolve_right (h4 r hr)), h2⟩
  have all : ∀ b ∈ R, _ := fun b hb => linked_ex (f := s'.f) (l := places s'.pos) (K := K) (codeOf s.f b) (ht.linked b hb) (step b hb) (fun x hx => by
    rcases hcases hb hx with ⟨-, e⟩ | ⟨n, h1, h2, h3, -⟩
    · exact .inl e
    · exact .inr ⟨n, h1, h2, h3⟩)
  refine ⟨fun b hb => ?_, fun b hb he y B e => ?_, fun c hc x hx b y ho => ?_⟩
  · rw [(hI.code hB (hB.sub b hb)).2]
    exact (all b hb).1
  · rw [(hI.code hB (hB.sub b hb)).2] at e
    rw [hI.grown.entry] at he
    rcases (all b hb).2 y B e with h | ⟨C, h⟩
    · exact h
    · have hy : y ∈ codeOf s.f b := by rw [h]; simp
      have := ht.starts b hb he y C h
      rcases hcases hb hy with ⟨e, -⟩ | ⟨n, -, -, h2, -⟩
      · exact fun r hr ha => this r hr (((same hb (inc hy) e).1 r).1 ha)
      · exact h2
  · rw [(hI.code hB (hB.sub c hc)).1] at hx
    rw [(hI.op (lt hc (inp hx))).2.2.2] at ho
    rw [pl (opl hc (inp hx) (b := c) (x := x) ?_)]
    · exact ht.phis c hc x hx b y ho
    · unfold operands
      refine List.mem_append_left _ (List.mem_append_right _ ?_)
      rw [if_pos (phisOf_phi hx)]
      exact List.mem_map.2 ⟨_, ho, rfl⟩

end Verif.Fit
