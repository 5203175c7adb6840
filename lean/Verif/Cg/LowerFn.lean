import Verif.Cg.LowerSim
import Verif.Cg.LowerQuiet
/-!
# The lowered function
-/
namespace Verif.Cg
open Verif Verif.IR Verif.Edit Verif.Loc Verif.Lower
open Verif.Norm (VrPos Reg)

variable {f : Fn} {R : List Nat}

theorem init_insn {x : Nat} (h : x < f.next) : (initCg f).f.insn x = f.insn x := by
  show (if _ then _ else _) = _
  rw [if_neg (by omega)]

theorem init_users {x : Nat} (h : x < f.next) : (initCg f).f.users x = f.users x := by
  show (if _ then _ else _) = _
  rw [if_neg (by omega)]

theorem init_reg {i : Nat} (h : i < 10) : (initCg f).f.insn (rgOf f i) = { op := .reg, aux := BitVec.ofNat 32 i } := by
  show (if _ then _ else _) = _
  unfold rgOf
  rw [if_pos (by omega)]
  congr 2
  omega

theorem init_live {x : Nat} : Live (initCg f).f x ↔ Live f x ∨ ∃ i, i < 10 ∧ x = rgOf f i := by
  show (x = f.sp ∨ x ∈ f.args ++ _ ∨ _) ↔ _
  simp only [List.mem_append, List.mem_map, List.mem_range]
  unfold Live
  constructor
  · rintro (h | (h | ⟨i, h1, h2⟩) | h)
    · exact .inl (.inl h)
    · exact .inl (.inr (.inl h))
    · exact .inr ⟨i, h1, h2.symm⟩
    · exact .inl (.inr (.inr h))
  · rintro ((h | h | h) | ⟨i, h1, h2⟩)
    · exact .inl h
    · exact .inr (.inl (.inl h))
    · exact .inr (.inr h)
    · exact .inr (.inl (.inr ⟨i, h1, h2.symm⟩))

theorem init_refs (ht : Tidy f) {x y : Nat} (h : Live (initCg f).f x) (hr : 0 < refs ((initCg f).f.insn x) y) : Live f x ∧ 0 < refs (f.insn x) y := by
  rcases init_live.1 h with h1 | ⟨i, h1, h2⟩
  · rw [init_insn (ht.lt x h1)] at hr
    exact ⟨h1, hr⟩
  · rw [h2, init_reg h1] at hr
    simp [refs] at hr

theorem init_tidy (ht : Tidy f) : Tidy (initCg f).f := by
  refine ⟨fun x hx => ?_, fun x y hx hr => ?_, ht.parent, ht.nodup, fun b hb x hx => ⟨(ht.fixed b hb x hx).1, ?_⟩⟩
  · show x < f.next + 10
    rcases init_live.1 hx with h1 | ⟨i, h1, h2⟩
    · have := ht.lt x h1
      omega
    · unfold rgOf at h2
      omega
  · obtain ⟨h1, h2⟩ := init_refs ht hx hr
    exact init_live.2 (.inl (ht.closed x y h1 h2))
  · show x ∉ f.args ++ _
    simp only [List.mem_append, List.mem_map, List.mem_range, not_or, not_exists, not_and]
    refine ⟨(ht.fixed b hb x hx).2, fun i _ e => ?_⟩
    have := ht.lt x (.inr (.inr ⟨b, hb, hx⟩))
    unfold rgOf at e
    omega

theorem init_cover (ht : Tidy f) (hu : UsersListed f) : Cover (initCg f).f (fun _ => False) := by
  intro y u hl _ hr
  obtain ⟨h1, h2⟩ := init_refs ht hl hr
  have hy := ht.closed u y h1 h2
  rw [init_users (ht.lt y hy)]
  exact ((hu y hy).1 u h1).2 h2

theorem takeWhile_ext {α : Type} {p q : α → Bool} : ∀ {l : List α}, (∀ x ∈ l, p x = q x) → l.takeWhile p = l.takeWhile q ∧ l.dropWhile p = l.dropWhile q
  | [], _ => ⟨rfl, rfl⟩
  | a :: l, h => by
    obtain ⟨h1, h2⟩ := takeWhile_ext (l := l) (fun x hx => h x (List.mem_cons_of_mem _ hx))
    rw [List.takeWhile_cons, List.takeWhile_cons, List.dropWhile_cons, List.dropWhile_cons, h a List.mem_cons_self, h1, h2]
    exact ⟨rfl, rfl⟩

theorem init_code (ht : Tidy f) {b : Nat} (hb : b ∈ f.allBbs) : phisOf (initCg f).f b = phisOf f b ∧ codeOf (initCg f).f b = codeOf f b :=
  takeWhile_ext (l := f.body b) (fun x hx => by rw [init_insn (ht.lt x (.inr (.inr ⟨b, hb, hx⟩)))])

/-- The calls in the blocks `R`. -/
def calls (f : Fn) (R : List Nat) : List Nat := (R.flatMap f.body).filter (fun x => (f.insn x).op == .call)

theorem mem_calls {x : Nat} : x ∈ calls f R ↔ (∃ b ∈ R, x ∈ f.body b) ∧ (f.insn x).op = .call := by
  unfold calls
  rw [List.mem_filter, List.mem_flatMap]
  simp

theorem nodup_bodies (ht : Tidy f) : ∀ {R : List Nat}, (∀ b ∈ R, b ∈ f.allBbs) → R.Nodup → (R.flatMap f.body).Nodup
  | [], _, _ => by simp
  | b :: R, hb, hn => by
    rw [List.nodup_cons] at hn
    rw [List.flatMap_cons, List.nodup_append]
    refine ⟨ht.nodup b (hb b List.mem_cons_self), nodup_bodies ht (fun c hc => hb c (List.mem_cons_of_mem _ hc)) hn.2, ?_⟩
    intro x hx y hy e
    subst e
    obtain ⟨c, hc, hxc⟩ := List.mem_flatMap.1 hy
    have e1 := ht.parent b (hb b List.mem_cons_self) x hx
    rw [ht.parent c (hb c (List.mem_cons_of_mem _ hc)) x hxc] at e1
    exact hn.1 (e1 ▸ hc)

theorem call_code {b x : Nat} (hx : x ∈ f.body b) (hc : (f.insn x).op = .call) : x ∈ codeOf f b := by
  rw [← phisOf_append f b] at hx
  rcases List.mem_append.1 hx with h | h
  · rw [phisOf_phi h] at hc
    cases hc
  · exact h

theorem argsAt {g : Fn} {pos : Nat → VrPos} {rn : Nat → Nat} : ∀ {vs : List Val} {i : Nat} {ns : List Nat}, ArgsOk g pos rn i vs ns → i + vs.length ≤ 5 →
    ArgsAt g (places pos) rn i vs ns
  | [], _, _, h, _ => h
  | v :: vs, i, ns, ⟨n, r, e, h1, h2, h3⟩, hl => by
    simp only [List.length_cons] at hl
    refine ⟨n, r, e, h1, ?_, argsAt h3 (by omega)⟩
    unfold places placeOf
    rw [h2]
    simp only [if_true, Fin.ofNat]
    omega

theorem virt_of {pos : Nat → VrPos} {x : Nat} (h : pos x = noPos) : places pos x = virt x := by
  unfold places
  rw [h]
  rfl

theorem ArgsOk.assign {g : Fn} {pos : Nat → VrPos} {rn : Nat → Nat} : ∀ {vs : List Val} {i : Nat} {ns : List Nat}, ArgsOk g pos rn i vs ns →
    ∀ n ∈ ns, (g.insn n).op = .assign
  | [], _, _, h, n, hn => by rw [h] at hn; cases hn
  | v :: vs, i, ns, ⟨m, r, e, h1, _, h3⟩, n, hn => by
    subst e
    rcases List.mem_cons.1 hn with rfl | hn
    · rw [h1]; rfl
    · exact ArgsOk.assign h3 n hn

/-- The lowering works and gives a lowered function. -/
theorem lower_ok (hr : Ready f R) : ∃ s rn H N M, lower f R = .ok s ∧ Lowd f R s.f (places s.pos) rn (rgOf f) H N M ∧
    ∃ C A, Low (initCg f).f (rgOf f) (initCg f).pos C A s rn H N M ∧ (∀ y, y ∈ C ↔ (∃ b ∈ R, y ∈ f.body b) ∧ (f.insn y).op = .call) ∧
      ∀ u : Nat → Bool, (∀ a ∈ f.args, u a = false → f.users a = []) → (H f.entry).length ≤ (f.args.filter u).length := by
  have ht1 := init_tidy hr.tidy
  have he : (initCg f).f.entry ∈ (initCg f).f.allBbs := hr.blocks _ hr.flow.entry
  have hrg : ∀ i, i < 10 → Live (initCg f).f (rgOf f i) := fun i hi => init_live.2 (.inr ⟨i, hi, rfl⟩)
  have hlt : ∀ {b x}, b ∈ f.allBbs → x ∈ f.body b → x < f.next := fun hb hx => hr.tidy.lt _ (.inr (.inr ⟨_, hb, hx⟩))
  have hrb : ∀ i, ∀ b ∈ (initCg f).f.allBbs, rgOf f i ∉ (initCg f).f.body b := by
    intro i b hb hx
    have := hlt (b := b) hb hx
    unfold rgOf at this
    omega
  have h0 := low_start (rg := rgOf f) ht1 (init_cover hr.tidy hr.users) (initCg f).pos
  have hcalls : (R.flatMap (initCg f).f.body).filter (fun x => ((initCg f).f.insn x).op == .call) = calls f R := by
    unfold calls
    refine List.filter_congr (fun x hx => ?_)
    obtain ⟨b, hb, hx⟩ := List.mem_flatMap.1 hx
    rw [init_insn (hlt (hr.blocks b hb) hx)]
  have hcx : ∀ x ∈ calls f R, ((initCg f).f.insn x).op = .call ∧ ∃ b ∈ (initCg f).f.allBbs, x ∈ codeOf (initCg f).f b := fun x hx => by
    obtain ⟨⟨b, hb, hx⟩, hc⟩ := mem_calls.1 hx
    rw [init_insn (hlt (hr.blocks b hb) hx)]
    refine ⟨hc, b, hr.blocks b hb, ?_⟩
    rw [(init_code hr.tidy (hr.blocks b hb)).2]
    exact call_code hx hc
  have hcn : (calls f R).Nodup := List.Nodup.sublist List.filter_sublist (nodup_bodies hr.tidy hr.blocks hr.nodup)
  obtain ⟨t, C, rn, N, M, e1, h1, hC⟩ := low_calls ht1 he hrg hrb (calls f R) h0 hcx hcn (by simp)
  have hC : ∀ y, y ∈ C ↔ (∃ b ∈ R, y ∈ f.body b) ∧ (f.insn y).op = .call := fun y => by rw [hC y, mem_calls]; simp
  have hCb : ∀ {y}, y ∈ C → y ∉ f.args ∧ y ≠ f.sp := by
    intro y hy
    obtain ⟨⟨b, hb, hy⟩, _⟩ := (hC y).1 hy
    exact ⟨(hr.tidy.fixed b (hr.blocks b hb) y hy).2, (hr.tidy.fixed b (hr.blocks b hb) y hy).1⟩
  have hz : ∀ o ∈ f.args.zipIdx, f.args[o.2]? = some o.1 := fun o ho => List.mem_zipIdx_iff_getElem?.1 ho
  obtain ⟨A, rn2, H, h2, hA⟩ := low_args ht1 he hrg f.args.zipIdx h1 (fun o ho => by
      have ho := hz o ho
      have hm := List.mem_of_getElem? ho
      refine ⟨init_live.2 (.inl (.inr (.inl hm))), fun hc => (hCb hc).1 hm, ?_, fun i e => ?_⟩
      · have := hr.five
        have := (List.getElem?_eq_some_iff.1 ho).1
        omega
      · have := hr.tidy.lt o.1 (.inr (.inl hm))
        unfold rgOf at e
        omega)
    (by rw [List.zipIdx_map_fst]; exact hr.distinct) (by simp)
  have hq : ∀ u : Nat → Bool, (∀ a ∈ f.args, u a = false → f.users a = []) →
      ((f.args.zipIdx.foldl (lowerArg (rgOf f)) t).f.body f.entry).length ≤ (t.f.body f.entry).length + (f.args.filter u).length := by
    intro u hu
    have hte : t.f.entry = f.entry := h1.core.grown.entry
    have hlen : (f.args.zipIdx.filter (fun o => u o.1)).length = (f.args.filter u).length := by
      rw [← List.countP_eq_length_filter, ← List.countP_eq_length_filter]
      have := List.countP_map (p := u) (f := Prod.fst) (l := f.args.zipIdx)
      rw [List.zipIdx_map_fst] at this
      exact this.symm
    have := args_quiet (rg := rgOf f) u f.args.zipIdx t (by rw [List.zipIdx_map_fst]; exact hr.distinct) (fun o ho => by
      have h3 := hr.tidy.lt o.1 (.inr (.inl (List.mem_of_getElem? (hz o ho))))
      have h4 : f.next + 10 ≤ t.f.next := h1.core.grown.next
      omega) (fun i o ho => by
      have h3 := hr.tidy.lt o.1 (.inr (.inl (List.mem_of_getElem? (hz o ho))))
      unfold rgOf
      omega) (fun o ho huo => by
      have hm := List.mem_of_getElem? (hz o ho)
      have h3 := hr.tidy.lt o.1 (.inr (.inl hm))
      refine lowerCalls_quiet ht1 he hrg hrb (by show o.1 < f.next + 10; omega) (by unfold rgOf; omega) (fun b hb hx => (hr.tidy.fixed b hb o.1 hx).2 hm) (calls f R) h0 hcx hcn (by simp) e1 ?_
      show (if _ then _ else _) = _
      rw [if_neg (by omega)]
      exact hu o.1 hm huo)
    rw [hte, hlen] at this
    exact this
  refine ⟨_, rn2, H, N, M, by unfold lower changeCall; rw [hcalls, e1, Out.ok_bind], ?_⟩
  show Lowd f R (changeFunArg (rgOf f) f.args t).f (places (changeFunArg (rgOf f) f.args t).pos) rn2 (rgOf f) H N M ∧
    ∃ C A, Low (initCg f).f (rgOf f) (initCg f).pos C A (changeFunArg (rgOf f) f.args t) rn2 H N M ∧ (∀ y, y ∈ C ↔ (∃ b ∈ R, y ∈ f.body b) ∧ (f.insn y).op = .call) ∧
      ∀ u : Nat → Bool, (∀ a ∈ f.args, u a = false → f.users a = []) → (H f.entry).length ≤ (f.args.filter u).length
  unfold changeFunArg
  generalize f.args.zipIdx.foldl (lowerArg (rgOf f)) t = s at h2 hq
  have hA : ∀ i a, (a, i) ∈ A ↔ f.args[i]? = some a := fun i a => by
    rw [hA]
    simp only [List.not_mem_nil, false_or]
    exact List.mem_zipIdx_iff_getElem?
  have hA1 : ∀ {y}, y ∈ A.map (·.1) → y ∈ f.args := by
    intro y hy
    obtain ⟨o, ho, e⟩ := List.mem_map.1 hy
    subst e
    exact List.mem_of_getElem? ((hA o.2 o.1).1 ho)
  have hold : ∀ y, y < f.next → s.pos y = (initCg f).pos y := fun y hy => h2.core.posOld y (by show y < f.next + 10; omega)
  have hun : ∀ {y}, Unref (initCg f).f y → ∀ u, Live f u → refs (f.insn u) y = 0 := by
    intro y h u hu
    rw [← init_insn (hr.tidy.lt u hu)]
    exact h u (init_live.2 (.inl hu))
  have hnp : ∀ y, Live f y → y ≠ f.sp → s.pos y = noPos := by
    intro y hy hs
    have := hr.tidy.lt y hy
    rw [hold y this]
    show (if _ then _ else if _ then _ else _) = _
    rw [if_neg hs, if_neg (by omega)]
  have hgc : ∀ b ∈ R, phisOf s.f b = phisOf f b ∧ codeOf s.f b = H b ++ ex N M (codeOf f b) := by
    intro b hb
    have hba := hr.blocks b hb
    have := h2.core.grown.code (b := b) hba (fun x hx => ?_) (fun n hn => ?_) (fun x hx n hn => ?_) (by simp)
    · rw [(init_code hr.tidy hba).1, (init_code hr.tidy hba).2] at this
      simpa using this
    · by_cases hxC : x ∈ C
      · rw [h2.core.done x hxC]
      · rw [h2.core.old x (init_live.2 (.inl (inBody_live hr hb hx))) hxC, mapOps_op]
    · by_cases e : b = f.entry
      · subst e
        obtain ⟨⟨i, _, e⟩, _⟩ := h2.core.resH n hn
        rw [e]
        simp [mkAssign]
      · rw [h2.core.head b e] at hn
        cases hn
    · by_cases hxC : x ∈ C
      · rw [(h2.core.copies x hxC).assign n hn]
        simp
      · rw [(h2.core.none x hxC).1] at hn
        cases hn
  have hregs : ∀ i, i < 10 → places s.pos (rgOf f i) = i := by
    intro i hi
    have e : s.pos (rgOf f i) = ⟨true, Fin.ofNat 11 i, 0⟩ := by
      rw [h2.core.posOld _ (by show rgOf f i < f.next + 10; unfold rgOf; omega)]
      have := hr.tidy.lt f.sp (.inl rfl)
      show (if _ then _ else if _ then _ else _) = _
      unfold rgOf
      rw [if_neg (by omega), if_pos (by omega)]
      congr 2
      omega
    unfold places placeOf
    rw [e]
    simp only [if_true, Fin.ofNat]
    omega
  have hspR : rn2 f.sp = f.sp := h2.rest f.sp (fun h => (hCb h).2 rfl) (fun h => hr.sp (hA1 h))
  refine ⟨?_, C, A, h2, hC, fun u hu => ?_⟩
  rotate_left
  · have h3 := hq u hu
    have h4 := h1.core.grown.body f.entry he
    have h5 := h2.core.grown.body f.entry he
    rw [h4, h5] at h3
    simp only [List.length_append, List.length_nil] at h3
    omega
  exact {
    entry := h2.core.grown.entry
    succs := h2.core.grown.succs
    body := hgc
    plain := fun b hb x hx hc => by
      have hxC : x ∉ C := fun h => hc ((hC x).1 h).2
      have hxl := inBody_live hr hb hx
      refine ⟨?_, (h2.core.none x hxC).1, (h2.core.none x hxC).2, h2.rest x hxC (fun h => (hr.tidy.fixed b (hr.blocks b hb) x hx).2 (hA1 h))⟩
      rw [h2.core.old x (init_live.2 (.inl hxl)) hxC, init_insn (hr.tidy.lt x hxl)]
    call := fun b hb x hx hc => by
      have hxC : x ∈ C := (hC x).2 ⟨⟨b, hb, hx⟩, hc⟩
      have hxl := inBody_live hr hb hx
      have hi := init_insn (hr.tidy.lt x hxl)
      have h3 := h2.core.done x hxC
      have h4 := h2.core.copies x hxC
      rw [hi] at h3 h4
      refine ⟨h3, argsAt h4 (by have := (hr.arity b hb x hx hc).2; omega), ?_⟩
      rcases h2.rnC x hxC with ⟨h5, _, h6⟩ | h5
      · exact .inl ⟨h5, hun h6⟩
      · exact .inr ⟨h5, (h2.core.resM x (rn2 x) (by rw [h5]; simp)).1⟩
    head := h2.core.head
    heads := fun n hn => by
      have h3 := h2.core.resH n hn
      refine ⟨?_, virt_of h3.2, h3.1⟩
      have : f.next + 10 ≤ n := h2.core.grown.newB f.entry n (List.mem_append_left _ hn)
      omega
    args := fun i a ha => by
      rcases h2.rnA (a, i) ((hA i a).2 ha) with ⟨_, h3⟩ | h3
      · exact .inl (hun h3)
      · exact .inr h3
    regs := hregs
    sp := by
      refine ⟨hspR, ?_⟩
      have e : s.pos f.sp = ⟨true, 10, 0⟩ := by
        rw [hold _ (hr.tidy.lt f.sp (.inl rfl))]
        show (if _ then _ else _) = _
        rw [if_pos rfl]
      unfold places placeOf
      rw [e]
      rfl
    place := fun y hy hs => by
      by_cases hyC : y ∈ C
      · rcases h2.rnC y hyC with ⟨_, h5, _⟩ | h5
        · rw [h5]
          exact virt_of (hnp y hy hs)
        · exact virt_of (h2.core.resM y (rn2 y) (by rw [h5]; simp)).2
      · by_cases hyA : y ∈ A.map (·.1)
        · obtain ⟨o, ho, e⟩ := List.mem_map.1 hyA
          subst e
          rcases h2.rnA o ho with ⟨h5, _⟩ | ⟨h5, _⟩
          · rw [h5]
            exact virt_of (hnp _ hy hs)
          · exact virt_of (h2.core.resH _ h5).2
        · rw [h2.rest y hyC hyA]
          exact virt_of (hnp y hy hs)
    own := fun y ⟨b, hb, hy⟩ => virt_of (hnp y (.inr (.inr ⟨b, hb, hy⟩)) (hr.tidy.fixed b hb y hy).1)
    var := fun a _ ha => h2.rest a (fun h => by rw [((hC a).1 h).2] at ha; cases ha) (fun h => hr.fixed a (.inr (hA1 h)) ha)
    inj := fun y z hy hz e => h2.core.inj y z (by have := hr.tidy.lt y hy; show y < f.next + 10; omega) (by have := hr.tidy.lt z hz; show z < f.next + 10; omega) e }

end Verif.Cg
