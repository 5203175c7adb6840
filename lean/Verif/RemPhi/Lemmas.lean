import Verif.RemPhi.Model
import Verif.RemPhi.Sim
import Verif.Edit.Props
/-!
# `remove_phi` puts the copies
-/
namespace Verif.RemPhi
open Verif Verif.IR Verif.Edit Verif.Cg Verif.Loc
open Verif.Norm (VrPos Reg)
set_option linter.unusedSimpArgs false

/-- Removed phis are replaced by their registers. -/
def sig (regs : Reg → Nat) (pos : Nat → VrPos) (done : List Nat) : Val → Val
  | .insn y => if y ∈ done then .insn (regs (pos y).reg) else .insn y
  | v => v

/-- The instructions of a block before the jump. -/
def preOf (f : Fn) (b : Nat) : List Nat := (f.body b).takeWhile (fun x => !isJmp (f.insn x).op)
/-- The jump. -/
def tailOf (f : Fn) (b : Nat) : List Nat := (f.body b).dropWhile (fun x => !isJmp (f.insn x).op)

theorem pre_tail (f : Fn) (b : Nat) : f.body b = preOf f b ++ tailOf f b := List.takeWhile_append_dropWhile.symm

theorem pre_jmp {f : Fn} {b x : Nat} (h : x ∈ preOf f b) : isJmp (f.insn x).op = false := by
  have := of_takeWhile h
  simpa using this

theorem isJmp_control {o : Op} (h : isJmp o = true) : Loc.control o = true ∧ o ≠ .phi := by
  refine ⟨by simpa [isJmp, Loc.control, or_assoc] using Or.inl h, ?_⟩
  rintro rfl
  cases h

theorem control_isJmp {o : Op} (h : Loc.control o = true) (hp : o ≠ .phi) : isJmp o = true := by
  rcases control_cases h with rfl | h | rfl | rfl | rfl
  · rfl
  · simp [isJmp, h]
  · rfl
  · rfl
  · exact absurd rfl hp

theorem tail_cases {f : Fn} {R : List Nat} (hf : Flow f R) {b : Nat} (hb : b ∈ R) :
    tailOf f b = [] ∨ ∃ z, tailOf f b = [z] ∧ isJmp (f.insn z).op = true := by
  have e := pre_tail f b
  rcases ht : tailOf f b with _ | ⟨z, r⟩
  · exact Or.inl rfl
  · have hz : isJmp (f.insn z).op = true := by
      have := List.head?_dropWhile_not (p := fun x => !isJmp (f.insn x).op) (l := f.body b)
      have hh : (tailOf f b).head? = some z := by rw [ht]; rfl
      unfold tailOf at hh
      rw [hh] at this
      simpa using this
    rw [ht] at e
    obtain ⟨h1, h2⟩ := isJmp_control hz
    have := hf.last b hb _ z r e h1 h2
    subst this
    exact Or.inr ⟨z, rfl, hz⟩

/-- The new instruction is placed in front of the jump. -/
theorem place_before {g : Fn} {P N T : List Nat} {n : Nat} (hn : (P ++ (N ++ T)).Nodup) (hP : ∀ x ∈ P, isJmp (g.insn x).op = false)
    (hN : ∀ x ∈ N, isJmp (g.insn x).op = false) (hT : T = [] ∨ ∃ z, T = [z] ∧ isJmp (g.insn z).op = true) :
    placeBb g (P ++ (N ++ T)) n .backBeforeJmp = P ++ ((N ++ [n]) ++ T) := by
  obtain ⟨A, B, e1, e2, e3⟩ := placeBb_at (f := g) (x := n) (pos := .backBeforeJmp) hn
  rw [e2]
  have hPN : ∀ x ∈ P ++ N, isJmp (g.insn x).op = false := by
    intro x hx
    rcases List.mem_append.1 hx with h | h
    · exact hP x h
    · exact hN x h
  rw [← List.append_assoc] at e1
  rcases e3 with ⟨rfl, h⟩ | ⟨a, rfl, h⟩
  · rw [List.append_nil] at e1
    subst e1
    rcases hT with rfl | ⟨z, rfl, hz⟩
    · simp
    · have := h z (by simp)
      rw [hz] at this
      cases this
  · rcases hT with rfl | ⟨z, rfl, hz⟩
    · rw [List.append_nil] at e1
      have := hPN a (by rw [e1]; simp)
      rw [h] at this
      cases this
    · obtain ⟨e4, e5⟩ := List.append_inj' e1 rfl
      rw [← e4]
      cases e5
      simp

/-- The state while phis are removed: `done` are removed, the copies `C b` have been put in block `b`. -/
structure Inv (f0 : Fn) (pos0 : Nat → VrPos) (regs : Reg → Nat) (R done : List Nat) (C : Nat → List (Nat × Val)) (exc : Nat → Prop) (s : Cg) : Prop where
  phis : ∀ y ∈ done, (f0.insn y).op = .phi
  entry : s.f.entry = f0.entry
  succs : s.f.succs = f0.succs
  allBbs : s.f.allBbs = f0.allBbs
  sp : s.f.sp = f0.sp
  args : s.f.args = f0.args
  next : f0.next ≤ s.f.next
  pos : ∀ y, y < f0.next → s.pos y = pos0 y
  insn : ∀ y, InBody f0 y → y ∉ done → s.f.insn y = mapOps (sig regs pos0 done) (f0.insn y)
  stay : ∀ b ∈ f0.allBbs, ∀ y ∈ f0.body b, y ∉ done → y ∈ s.f.body b
  body : ∀ b ∈ R, ∃ N, s.f.body b = (preOf f0 b).filter (fun y => decide (y ∉ done)) ++ (N ++ tailOf f0 b) ∧ (∀ n ∈ N, f0.next ≤ n) ∧
    All2 (fun n o => s.f.insn n = mkAssign (sig regs pos0 done o.2) ∧ s.pos n = pos0 o.1) N (C b)
  tidy : Tidy s.f
  cover : ∀ u y, Live s.f u → ¬ exc u → Live s.f y → 0 < refs (s.f.insn u) y → u ∈ s.f.users y

theorem All2.snoc {α β : Type} {P : α → β → Prop} {a : α} {b : β} : ∀ {as : List α} {bs : List β}, All2 P as bs → P a b → All2 P (as ++ [a]) (bs ++ [b])
  | [], [], .nil, h => .cons h .nil
  | _ :: _, _ :: _, .cons h1 h2, h => .cons h1 (h2.snoc h)

theorem All2.imp {α β : Type} {P Q : α → β → Prop} : ∀ {as : List α} {bs : List β}, All2 P as bs → (∀ a ∈ as, ∀ b ∈ bs, P a b → Q a b) → All2 Q as bs
  | [], [], .nil, _ => .nil
  | a :: _, b :: _, .cons h1 h2, h =>
    .cons (h a List.mem_cons_self b List.mem_cons_self h1) (h2.imp (fun x hx y hy => h x (List.mem_cons_of_mem _ hx) y (List.mem_cons_of_mem _ hy)))

theorem All2.left {α β : Type} {P : α → β → Prop} : ∀ {as : List α} {bs : List β}, All2 P as bs → ∀ a ∈ as, ∃ b ∈ bs, P a b
  | a :: _, b :: _, .cons h1 h2, c, hc => by
    rcases List.mem_cons.1 hc with rfl | hc
    · exact ⟨b, List.mem_cons_self, h1⟩
    · obtain ⟨d, hd, h⟩ := h2.left c hc
      exact ⟨d, List.mem_cons_of_mem _ hd, h⟩

variable {f0 : Fn} {pos0 : Nat → VrPos} {regs : Reg → Nat} {R : List Nat}

theorem inv_start (h : PhiReady f0 R pos0 regs) : Inv f0 pos0 regs R [] (fun _ => []) (fun _ => False) ⟨f0, pos0⟩ := by
  have hid : ∀ v, sig regs pos0 [] v = v := by intro v; cases v <;> simp [sig]
  refine ⟨by simp, rfl, rfl, rfl, rfl, rfl, Nat.le_refl _, fun _ _ => rfl, ?_, fun _ _ _ hy _ => hy, ?_, h.tidy, ?_⟩
  · intro y _ _
    exact (mapOps_id (fun v _ => hid v)).symm
  · intro b _
    refine ⟨[], ?_, by simp, .nil⟩
    have : (preOf f0 b).filter (fun y => decide (y ∉ ([] : List Nat))) = preOf f0 b := List.filter_eq_self.2 (fun _ _ => by simp)
    rw [this]
    exact pre_tail f0 b
  · intro u y hu _ hy hr
    exact h.users u y hu hy hr

/-- One copy. -/
theorem inv_copy (h : PhiReady f0 R pos0 regs) (hf : Flow f0 R) {done : List Nat} {C : Nat → List (Nat × Val)} {x : Nat} {s : Cg}
    (hi : Inv f0 pos0 regs R done C (fun u => u = x) s) {b : Nat} (hb : b ∈ f0.allBbs) {v0 : Val}
    (hv : ∀ y, sig regs pos0 done v0 = .insn y → Live s.f y) :
    Inv f0 pos0 regs R done (fun c => C c ++ if b = c then [(x, v0)] else []) (fun u => u = x)
      { f := removeUser (createBb s.f (mkAssign (sig regs pos0 done v0)) b .backBeforeJmp) (sig regs pos0 done v0) x
        pos := upd s.pos s.f.next (pos0 x) } := by
  generalize hw : sig regs pos0 done v0 = v at hv ⊢
  have ha := added_createBb s.f (mkAssign v) b .backBeforeJmp
  have hs := removeUser_same (createBb s.f (mkAssign v) b .backBeforeJmp) v x
  have hb' : b ∈ s.f.allBbs := by rw [hi.allBbs]; exact hb
  have hops : operands (mkAssign v) = [v] := by simp [operands, mkAssign, raw]
  have ht1 : Tidy (createBb s.f (mkAssign v) b .backBeforeJmp) := ha.tidy hi.tidy hb' (by
    intro y hy
    rw [hops] at hy
    simp only [List.mem_singleton] at hy
    exact hv y hy.symm)
  have hold : ∀ y, Live s.f y → y ≠ s.f.next := fun y hy e => next_dead hi.tidy (e ▸ hy)
  have hlt0 : ∀ y, InBody f0 y → y ≠ s.f.next := by
    intro y hy e
    have := h.tidy.lt y (.inr (.inr hy))
    have := hi.next
    omega
  refine ⟨hi.phis, ?_, ?_, ?_, ?_, ?_, ?_, ?_, ?_, ?_, ?_, ?_, ?_⟩ <;> dsimp only
  · rw [hs.entry, ha.entry, hi.entry]
  · rw [hs.succs, ha.succs, hi.succs]
  · rw [hs.allBbs, ha.allBbs, hi.allBbs]
  · rw [hs.sp, ha.sp, hi.sp]
  · rw [hs.args, ha.args, hi.args]
  · rw [hs.next, ha.next]; have := hi.next; omega
  · intro y hy
    have := hi.next
    rw [upd_ne _ _ (by omega)]
    exact hi.pos y hy
  · intro y hy hd
    rw [hs.insn, ha.insn, upd_ne _ _ (hlt0 y hy)]
    exact hi.insn y hy hd
  · intro c hc y hy hd
    rw [hs.body]
    have := hi.stay c hc y hy hd
    by_cases e : c = b
    · subst e; exact (ha.bodyB y).2 (.inr this)
    · rw [ha.body c e]; exact this
  · intro c hc
    obtain ⟨N, e1, e2, e3⟩ := hi.body c hc
    have hc0 := h.blocks.2 c hc
    have hc' : c ∈ s.f.allBbs := by rw [hi.allBbs]; exact hc0
    have hNn : ∀ n ∈ N, n ≠ s.f.next := by
      intro n hn
      refine hold n (.inr (.inr ⟨c, hc', ?_⟩))
      rw [e1]
      exact List.mem_append_right _ (List.mem_append_left _ hn)
    have e3' : All2 (fun n o => (upd s.f.insn s.f.next (mkAssign v)) n = mkAssign (sig regs pos0 done o.2) ∧ upd s.pos s.f.next (pos0 x) n = pos0 o.1) N (C c) :=
      e3.imp (fun n hn o _ ho => ⟨by rw [upd_ne _ _ (hNn n hn)]; exact ho.1, by rw [upd_ne _ _ (hNn n hn)]; exact ho.2⟩)
    by_cases e : b = c
    · subst e
      refine ⟨N ++ [s.f.next], ?_, ?_, ?_⟩
      · rw [hs.body]
        have hal := alloc_same s.f (mkAssign v) b
        have : (createBb s.f (mkAssign v) b .backBeforeJmp).body b = placeBb (alloc s.f (mkAssign v) b) (s.f.body b) s.f.next .backBeforeJmp := by
          unfold createBb; dsimp only; rw [upd_same, hal.body]
        rw [this, e1]
        have hin : ∀ y ∈ f0.body b, y ∉ done → ((alloc s.f (mkAssign v) b).insn y).op = (f0.insn y).op := by
          intro y hy hd
          have hy0 : InBody f0 y := ⟨b, hc0, hy⟩
          rw [hal.insn]
          dsimp only
          rw [upd_ne _ _ (hlt0 y hy0), hi.insn y hy0 hd, mapOps_op]
        refine place_before ?_ ?_ ?_ ?_
        · rw [← e1]; exact hi.tidy.nodup b hc'
        · intro y hy
          obtain ⟨h1, h2⟩ := List.mem_filter.1 hy
          rw [hin y (by rw [pre_tail f0 b]; exact List.mem_append_left _ h1) (by simpa using h2)]
          exact pre_jmp h1
        · intro n hn
          obtain ⟨o, _, ho, _⟩ := e3.left n hn
          rw [hal.insn]
          dsimp only
          rw [upd_ne _ _ (hNn n hn), ho]
          rfl
        · rcases tail_cases hf hc with h1 | ⟨z, h1, h2⟩
          · exact Or.inl h1
          · refine Or.inr ⟨z, h1, ?_⟩
            have hzs : z ∈ s.f.body b := by rw [e1, h1]; simp
            have hz0 : z ∈ f0.body b := by rw [pre_tail f0 b, h1]; simp
            have hzd : z ∉ done := fun hd => (isJmp_control h2).2 (hi.phis z hd)
            rw [hin z hz0 hzd]; exact h2
      · intro n hn
        rcases List.mem_append.1 hn with hn | hn
        · exact e2 n hn
        · simp only [List.mem_singleton] at hn
          rw [hn]; exact hi.next
      · rw [if_pos rfl, hs.insn, ha.insn]
        exact e3'.snoc ⟨by rw [upd_same, hw], by rw [upd_same]⟩
    · refine ⟨N, ?_, e2, ?_⟩
      · rw [hs.body, ha.body c (fun e' => e e'.symm)]; exact e1
      · rw [if_neg e, List.append_nil, hs.insn, ha.insn]; exact e3'
  · exact hs.tidy ht1
  · intro u y hu hux hy hr
    rw [hs.live, ha.live hb'] at hu hy
    rw [hs.insn, ha.insn] at hr
    rw [← List.count_pos_iff, removeUser_count, if_neg (fun e => hux e.2), ha.users, alloc_count]
    have hyl : Live s.f y ∧ (u ≠ s.f.next → y ≠ s.f.next) := by
      rcases hu with rfl | hu
      · rw [upd_same, refs_pos, hops] at hr
        simp only [List.mem_singleton] at hr
        exact ⟨hv y hr.symm, fun h => absurd rfl h⟩
      · rw [upd_ne _ _ (hold u hu)] at hr
        have := hi.tidy.closed u y hu hr
        exact ⟨this, fun _ => hold y this⟩
    by_cases e : u = s.f.next
    · subst e
      rw [upd_same, refs_eq] at hr
      rw [if_pos rfl]
      omega
    · have hu' := hu.resolve_left e
      rw [upd_ne _ _ e] at hr
      rw [if_neg (hold y hyl.1)]
      have := List.count_pos_iff.2 (hi.cover u y hu' hux hyl.1 hr)
      omega

/-- All the copies for a phi; `P` are the operands in the original function. -/
theorem inv_copies (h : PhiReady f0 R pos0 regs) (hf : Flow f0 R) {done : List Nat} {x : Nat} :
    ∀ (P : List (Nat × Val)) {C : Nat → List (Nat × Val)} {s : Cg}, Inv f0 pos0 regs R done C (fun u => u = x) s →
      (∀ o ∈ P, o.1 ∈ f0.allBbs) → (∀ o ∈ P, ∀ y, sig regs pos0 done o.2 = .insn y → Live s.f y) →
      Inv f0 pos0 regs R done (fun c => C c ++ (P.filter (fun o => o.1 == c)).map (fun o => (x, o.2))) (fun u => u = x)
        (copyOps x (pos0 x) (P.map (fun o => (o.1, sig regs pos0 done o.2))) s)
  | [], C, s, hi, _, _ => by simpa [copyOps] using hi
  | o :: P, C, s, hi, hb, hv => by
    have h1 := inv_copy h hf hi (hb o List.mem_cons_self) (hv o List.mem_cons_self)
    have hl : ∀ y, Live s.f y → Live (removeUser (createBb s.f (mkAssign (sig regs pos0 done o.2)) o.1 .backBeforeJmp) (sig regs pos0 done o.2) x) y := by
      intro y hy
      rw [(removeUser_same _ _ _).live, (added_createBb _ _ _ _).live (by rw [hi.allBbs]; exact hb o List.mem_cons_self)]
      exact Or.inr hy
    have h2 := inv_copies h hf P h1 (fun q hq => hb q (List.mem_cons_of_mem _ hq)) (fun q hq y hy => hl y (hv q (List.mem_cons_of_mem _ hq) y hy))
    have e : (fun c => C c ++ ((o :: P).filter (fun o => o.1 == c)).map (fun o => (x, o.2))) =
        (fun c => (C c ++ if o.1 = c then [(x, o.2)] else []) ++ (P.filter (fun o => o.1 == c)).map (fun o => (x, o.2))) := by
      funext c
      by_cases ec : o.1 = c
      · simp [ec]
      · simp [ec]
    rw [e]
    exact h2

theorem erase_tidy' {f g : Fn} {x : Nat} (ht : Tidy f) (hno : ∀ z, Live f z → z ≠ x → refs (f.insn z) x = 0) (hx : InBody f x) (h : erase f x = .ok g) : Tidy g := by
  obtain ⟨h1, hs, _⟩ := erase_spec h
  have hb := erase_body ht hx h
  have hl := @erase_live f g x ht hx h
  refine ⟨?_, ?_, ?_, ?_, ?_⟩
  · intro z hz; rw [hs.next]; exact ht.lt z (hl.1 hz).1
  · intro z y hz hy
    rw [hs.insn] at hy
    rw [hl] at hz ⊢
    refine ⟨ht.closed z y hz.1 hy, ?_⟩
    intro e
    subst e
    have := hno z hz.1 hz.2
    dsimp only at hy
    omega
  · intro c hc z hz
    rw [hs.allBbs] at hc
    rw [hs.parent]
    exact ht.parent c hc z (((hb c hc).2 z).1 hz).1
  · intro c hc; rw [hs.allBbs] at hc; exact (hb c hc).1
  · intro c hc z hz
    rw [hs.allBbs] at hc
    rw [hs.sp, hs.args]
    exact ht.fixed c hc z (((hb c hc).2 z).1 hz).1

theorem erase_filter' {f g : Fn} {x : Nat} (ht : Tidy f) (hx : InBody f x) (h : erase f x = .ok g) {b : Nat} (hb : b ∈ f.allBbs) :
    g.body b = (f.body b).filter (fun y => decide (y ≠ x)) := by
  obtain ⟨_, hs, _⟩ := erase_spec h
  obtain ⟨c, hc, hxc⟩ := hx
  have hp := ht.parent c hc x hxc
  rw [hs.body]
  dsimp only
  rw [hp]
  by_cases e : b = c
  · subst e
    rw [upd_same, List.Nodup.erase_eq_filter (ht.nodup b hb)]
    congr 1
    funext y
    simp [bne, BEq.beq]
  · rw [upd_ne _ _ e]
    refine (List.filter_eq_self.2 (fun y hy => ?_)).symm
    have : y ≠ x := by
      rintro rfl
      exact e (by rw [← ht.parent b hb y hy, hp])
    simpa using this

theorem sig_next {done : List Nat} {x : Nat} (hreg : ∀ r, regs r ≠ x) (hx : x ∉ done) (v : Val) :
    sub x (.insn (regs (pos0 x).reg)) (sig regs pos0 done v) = sig regs pos0 (done ++ [x]) v := by
  cases v with
  | const => rfl
  | undef => rfl
  | insn y =>
    simp only [sig, List.mem_append, List.mem_singleton]
    by_cases h1 : y ∈ done
    · simp [h1, sub, hreg]
    · by_cases h2 : y = x
      · subst h2
        simp [h1, sub]
      · simp [h1, h2, sub]

/-- One phi is removed. -/
theorem inv_one (h : PhiReady f0 R pos0 regs) (hf : Flow f0 R) {done : List Nat} {C : Nat → List (Nat × Val)} {x : Nat} {s : Cg}
    (hi : Inv f0 pos0 regs R done C (fun _ => False) s) {c : Nat} (hc : c ∈ R) (hx : x ∈ phisOf f0 c) (hxd : x ∉ done) :
    ∃ t, removeOne regs x s = .ok t ∧
      Inv f0 pos0 regs R (done ++ [x]) (fun b => C b ++ ((f0.insn x).phi.filter (fun o => o.1 == b)).map (fun o => (x, o.2))) (fun _ => False) t := by
  have hxb : x ∈ f0.body c := by rw [← phisOf_append f0 c]; exact List.mem_append_left _ hx
  have hc0 := h.blocks.2 c hc
  have hx0 : InBody f0 x := ⟨c, hc0, hxb⟩
  have hxp := phisOf_phi hx
  have hlt := h.tidy.lt x (.inr (.inr hx0))
  have hpx : s.pos x = pos0 x := hi.pos x hlt
  have hix := hi.insn x hx0 hxd
  have hphi : (s.f.insn x).phi = (f0.insn x).phi.map (fun o => (o.1, sig regs pos0 done o.2)) := by
    rw [hix]; simp [mapOps, hxp]
  have hreg : ∀ r, regs r ≠ x := fun r e => (h.regs r).1.elim (fun e' => (h.tidy.fixed c hc0 x hxb).1 (e ▸ e')) (fun h' => (h.tidy.fixed c hc0 x hxb).2 (e ▸ h'))
  have hxs : InBody s.f x := ⟨c, by rw [hi.allBbs]; exact hc0, hi.stay c hc0 x hxb hxd⟩
  -- the copies
  have h1 := inv_copies h hf (f0.insn x).phi (C := C) (s := s) (x := x) { hi with cover := fun u y a _ => hi.cover u y a (fun e => e) }
    (h.from_ c hc x hx) (fun o ho y hy => by
      refine hi.tidy.closed x y (.inr (.inr hxs)) (refs_pos.2 ?_)
      rw [hix, operands_mapOps, ← hy]
      refine List.mem_map_of_mem ?_
      unfold operands
      simp only [hxp, if_true]
      exact List.mem_append_left _ (List.mem_append_right _ (List.mem_map.2 ⟨o, ho, rfl⟩)))
  rw [← hphi] at h1
  unfold removeOne
  dsimp only
  rw [hpx]
  generalize copyOps x (pos0 x) (s.f.insn x).phi s = t at h1 ⊢
  generalize hC : (fun b => C b ++ ((f0.insn x).phi.filter (fun o => o.1 == b)).map (fun o => (x, o.2))) = C' at h1 ⊢
  have hxt : InBody t.f x := ⟨c, by rw [h1.allBbs]; exact hc0, h1.stay c hc0 x hxb hxd⟩
  -- the operands are dropped
  have hp2 : Patched t.f x (dropPhi t.f x) := ⟨fun z hz => upd_ne _ _ hz, rfl, rfl, rfl, rfl, rfl, rfl⟩
  have hi2 : (dropPhi t.f x).insn x = { t.f.insn x with phi := [] } := upd_same ..
  have ht2 : Tidy (dropPhi t.f x) := hp2.tidy h1.tidy (fun hl y hy => by
    refine h1.tidy.closed x y hl (refs_pos.2 ?_)
    rw [hi2, refs_pos] at hy
    unfold operands at hy ⊢
    simp only [List.mem_append] at hy ⊢
    rcases hy with (hy | hy) | hy
    · exact Or.inl (Or.inl hy)
    · split at hy <;> simp at hy
    · exact Or.inr hy)
  -- the uses are replaced
  generalize hrep : Val.insn (regs (pos0 x).reg) = rep
  have hr : rep ≠ .insn x := by rw [← hrep]; intro e; exact hreg _ (Val.insn.inj e)
  have hrl : ∀ y, rep = .insn y → Live (dropPhi t.f x) y := by
    intro y e
    rw [← hrep] at e
    cases e
    refine hp2.live.2 ((h.regs (pos0 x).reg).1.elim (fun e => .inl ?_) fun e => .inr (.inl ?_))
    · rw [h1.sp]; exact e
    · rw [h1.args]; exact e
  have h3 := replaceAll_spec (f := dropPhi t.f x) hr
  have hux := replaceAll_usersX (f := dropPhi t.f x) hr
  have ht3 := h3.tidy ht2 (by rw [← hrep] at hrl ⊢; exact hrl _ rfl)
  have hi3 : ∀ z, Live t.f z → z ≠ x → (replaceAll (dropPhi t.f x) x rep).insn z = mapOps (sub x rep) (t.f.insn z) := by
    intro z hz hzx
    by_cases hm : z ∈ (dropPhi t.f x).users x
    · rw [h3.insnIn z hm, hp2.insn z hzx]
    · rw [h3.insnOut z hm, hp2.insn z hzx]
      refine (mapOps_id (fun v hv => ?_)).symm
      unfold sub
      rw [if_neg]
      rintro rfl
      exact hm (h1.cover z x hz hzx (.inr (.inr hxt)) (refs_pos.2 hv))
  have hb3 : (replaceAll (dropPhi t.f x) x rep).body = t.f.body := h3.body.trans hp2.body
  have ha3 : (replaceAll (dropPhi t.f x) x rep).allBbs = t.f.allBbs := h3.allBbs.trans hp2.allBbs
  have hl3 : ∀ {z}, Live (replaceAll (dropPhi t.f x) x rep) z ↔ Live t.f z := fun {z} => h3.live.trans hp2.live
  have hx3 : InBody (replaceAll (dropPhi t.f x) x rep) x := by
    unfold InBody; rw [ha3, hb3]; exact hxt
  -- the phi is erased
  obtain ⟨g, hg⟩ : ∃ g, erase (replaceAll (dropPhi t.f x) x rep) x = .ok g := by
    unfold erase
    rw [hux]
    exact ⟨_, rfl⟩
  rw [hg]
  refine ⟨_, rfl, ?_⟩
  obtain ⟨-, h4, hcnt⟩ := erase_spec hg
  have hl4 := @erase_live _ g x ht3 hx3 hg
  have ht4 := erase_tidy' ht3 (fun z hz hzx => by
    rw [hi3 z (hl3.1 hz) hzx, refs_eq, operands_mapOps, count_sub _ _ _ _ hr]
    simp [hr]) hx3 hg
  have hb4 : ∀ b ∈ f0.allBbs, g.body b = (t.f.body b).filter (fun y => decide (y ≠ x)) := by
    intro b hb
    rw [erase_filter' ht3 hx3 hg (by rw [ha3, h1.allBbs]; exact hb), hb3]
  have hig : ∀ z, Live t.f z → z ≠ x → g.insn z = mapOps (sub x rep) (t.f.insn z) := by
    intro z hz hzx
    rw [h4.insn]
    exact hi3 z hz hzx
  have hcomp : (fun v => sub x rep (sig regs pos0 done v)) = sig regs pos0 (done ++ [x]) := by
    funext v
    rw [← hrep]
    exact sig_next hreg hxd v
  refine ⟨?_, ?_, ?_, ?_, ?_, ?_, ?_, h1.pos, ?_, ?_, ?_, ht4, ?_⟩ <;> try dsimp only
  · intro y hy
    rcases List.mem_append.1 hy with hy | hy
    · exact hi.phis y hy
    · simp only [List.mem_singleton] at hy; subst hy; exact hxp
  · exact h4.entry.trans (h3.entry.trans h1.entry)
  · exact h4.succs.trans (h3.succs.trans h1.succs)
  · exact h4.allBbs.trans (h3.allBbs.trans h1.allBbs)
  · exact h4.sp.trans (h3.sp.trans h1.sp)
  · exact h4.args.trans (h3.args.trans h1.args)
  · have : g.next = t.f.next := h4.next.trans h3.next
    rw [this]; exact h1.next
  · intro y hy hd
    simp only [List.mem_append, List.mem_singleton, not_or] at hd
    have hyt : Live t.f y := by
      obtain ⟨b, hb, hyb⟩ := hy
      exact .inr (.inr ⟨b, by rw [h1.allBbs]; exact hb, h1.stay b hb y hyb hd.1⟩)
    rw [hig y hyt hd.2, h1.insn y hy hd.1, mapOps_comp, hcomp]
  · intro b hb y hy hd
    simp only [List.mem_append, List.mem_singleton, not_or] at hd
    rw [hb4 b hb, List.mem_filter]
    exact ⟨h1.stay b hb y hy hd.1, by simpa using hd.2⟩
  · intro b hb
    obtain ⟨N, e1, e2, e3⟩ := h1.body b hb
    have hb0 := h.blocks.2 b hb
    refine ⟨N, ?_, e2, ?_⟩
    · rw [hb4 b hb0, e1, List.filter_append, List.filter_append, List.filter_filter]
      have f1 : N.filter (fun y => decide (y ≠ x)) = N := List.filter_eq_self.2 (fun n hn => by
        have := e2 n hn
        have : n ≠ x := by omega
        simpa using this)
      have f2 : (tailOf f0 b).filter (fun y => decide (y ≠ x)) = tailOf f0 b := List.filter_eq_self.2 (fun n hn => by
        have : n ≠ x := by
          rintro rfl
          rcases tail_cases hf hb with h5 | ⟨z, h5, h6⟩
          · rw [h5] at hn; cases hn
          · rw [h5] at hn
            simp only [List.mem_singleton] at hn
            subst hn
            exact (isJmp_control h6).2 hxp
        simpa using this)
      rw [f1, f2]
      congr 1
      refine List.filter_congr (fun y _ => ?_)
      simp only [List.mem_append, List.mem_singleton, not_or]
      by_cases h5 : y ∈ done <;> by_cases h6 : y = x <;> simp [h5, h6]
    · refine e3.imp (fun n hn o _ ho => ⟨?_, ho.2⟩)
      have hnl : Live t.f n := .inr (.inr ⟨b, by rw [h1.allBbs]; exact hb0, by rw [e1]; exact List.mem_append_right _ (List.mem_append_left _ hn)⟩)
      have hnx : n ≠ x := by have := e2 n hn; omega
      rw [hig n hnl hnx, ho.1, ← hcomp]
      simp [mapOps, mkAssign, raw]
  · intro u y hu _ hy hrf
    rw [hl4, hl3] at hu hy
    rw [hig u hu.1 hu.2] at hrf
    rw [← List.count_pos_iff, hcnt, if_neg hu.2, Nat.sub_zero]
    have hold : 0 < refs (t.f.insn u) y → 0 < ((dropPhi t.f x).users y).count u := by
      intro h5
      exact List.count_pos_iff.2 (h1.cover u y hu.1 hu.2 hy.1 h5)
    have hu2 : (dropPhi t.f x).insn u = t.f.insn u := hp2.insn u hu.2
    rw [refs_eq, operands_mapOps, count_sub _ _ _ _ hr, if_neg (by intro e; cases e; exact hy.2 rfl)] at hrf
    by_cases hm : u ∈ (dropPhi t.f x).users x
    · by_cases e : rep = .insn y
      · rw [h3.usersIn y u e hm, hu2]
        rw [if_pos e] at hrf
        rcases Nat.eq_zero_or_pos ((operands (t.f.insn u)).count (.insn y)) with h5 | h5
        · omega
        · have := hold (by rw [refs_eq]; exact h5); omega
      · rw [if_neg e] at hrf
        rw [h3.usersOut y u hy.2 (.inl e)]
        exact hold (by rw [refs_eq]; omega)
    · rw [h3.usersOut y u hy.2 (.inr hm)]
      refine hold ?_
      have : (operands (t.f.insn u)).count (.insn x) = 0 := by
        rcases Nat.eq_zero_or_pos ((operands (t.f.insn u)).count (.insn x)) with h5 | h5
        · exact h5
        · exact absurd (h1.cover u x hu.1 hu.2 (.inr (.inr hxt)) (by rw [refs_eq]; exact h5)) hm
      rw [this] at hrf
      rw [refs_eq]
      split at hrf <;> omega

/-- The copies for the phis `X` in block `b`. -/
def copiesFor (f : Fn) (X : List Nat) (b : Nat) : List (Nat × Val) :=
  X.flatMap (fun x => ((f.insn x).phi.filter (fun o => o.1 == b)).map (fun o => (x, o.2)))

theorem inv_all (h : PhiReady f0 R pos0 regs) (hf : Flow f0 R) : ∀ (X : List Nat) {done : List Nat} {s : Cg},
    Inv f0 pos0 regs R done (copiesFor f0 done) (fun _ => False) s → (∀ x ∈ X, ∃ c ∈ R, x ∈ phisOf f0 c) → (done ++ X).Nodup →
    ∃ t, removeAll regs X s = .ok t ∧ Inv f0 pos0 regs R (done ++ X) (copiesFor f0 (done ++ X)) (fun _ => False) t
  | [], done, s, hi, _, _ => ⟨s, rfl, by simpa using hi⟩
  | x :: X, done, s, hi, hX, hn => by
    obtain ⟨c, hc, hxc⟩ := hX x List.mem_cons_self
    have hxd : x ∉ done := by
      intro hd
      rw [List.nodup_append] at hn
      exact hn.2.2 x hd x List.mem_cons_self rfl
    obtain ⟨t, e, h1⟩ := inv_one h hf hi hc hxc hxd
    have e2 : (fun b => copiesFor f0 done b ++ ((f0.insn x).phi.filter (fun o => o.1 == b)).map (fun o => (x, o.2))) = copiesFor f0 (done ++ [x]) := by
      funext b
      unfold copiesFor
      rw [List.flatMap_append]
      simp
    rw [e2] at h1
    obtain ⟨u, e3, h2⟩ := inv_all h hf X h1 (fun y hy => hX y (List.mem_cons_of_mem _ hy)) (by simpa using hn)
    refine ⟨u, ?_, by simpa using h2⟩
    simp only [removeAll, e, Out.ok_bind]
    exact e3

end Verif.RemPhi
