import Verif.Pipe.Guarded
/-!
# A guarded function is ready for code generation
-/
namespace Verif.Pipe
open Verif Verif.IR
open Verif.Edit (raw operands const32 mkThrow freshBb)
open Verif.Guard (Guard)
open Verif.DivZero (jump)
open Verif.Flatten (graphOf lastOf)
open Verif.Lower (void)

section
variable {f g : Fn} {b n e : Nat} {hd B : List Nat} {d y : Nat} (A : Adds f b n e hd B d y g)
include A

/-- Where an instruction of the new function comes from: an old one, or one of the two new ones. -/
theorem Adds.place {c x : Nat} (hx : x ∈ g.body c) :
    (∃ c0, c0 ∈ f.allBbs ∧ x ∈ f.body c0 ∧ (c = c0 ∨ c = n ∧ c0 = b) ∧ (c = b → x ∈ hd) ∧ (c = n → x ∈ d :: B)) ∨ (c = b ∧ x = f.next + 1) ∨ (c = e ∧ x = f.next) := by
  by_cases hc : c ∈ g.allBbs
  · rcases (A.guard.mem hc).1 hx with ⟨h1, h2, h3⟩ | ⟨h1, h3 | h3⟩ | ⟨h1, h3⟩ | ⟨h1, h3⟩
    · exact .inl ⟨c, h1, h3, .inl rfl, fun k => absurd k h2, fun k => absurd k (A.nB h1).1⟩
    · exact .inl ⟨b, A.guard.inF, by rw [A.split]; simp [h3], .inl h1, fun _ => h3, fun k => absurd (h1.symm.trans k) A.guard.hbn⟩
    · exact .inr (.inl ⟨h1, h3⟩)
    · exact .inl ⟨b, A.guard.inF, by rw [A.split]; exact List.mem_append_right _ h3, .inr ⟨h1, rfl⟩, fun k => absurd (k.symm.trans h1) A.guard.hbn, fun _ => h3⟩
    · exact .inr (.inr ⟨h1, h3⟩)
  · rw [A.other c hc] at hx
    have hm : c ∉ f.allBbs := fun h => hc (A.guard.mem_all.2 (.inl h))
    have := A.code.ok.only c hm
    change f.body c = [] at this
    rw [this] at hx
    cases hx

theorem Adds.reachB : Reach (noThrows f) b := A.code.reach A.guard.inF

theorem Adds.ySafe : y ∉ d :: B := by
  intro hm
  have := A.code.ordered b A.reachB hd d B A.split (by rw [Ne, noThrows_op (by simp) (by simp), A.div]; simp) y hm
  have h1 : 0 < refs ((noThrows f).insn d) y := by
    rw [Edit.refs_pos]
    rcases noThrows_cases f d with ⟨e1, _⟩ | ⟨_, _, e2⟩
    · rw [e1]; exact A.uses
    · rw [A.div] at e2; cases e2
  omega

theorem Adds.liveOld {x u : Nat} (hx : InBody f x) (h : 0 < refs ((noThrows f).insn x) u) : Live f u :=
  A.shape.tidy.closed x u (.inr (.inr hx)) (noThrows_refs f x u h)

theorem Adds.inOld {u : Nat} (h : InBody g u) (hu : Live f u) : InBody f u := by
  have hlt := A.shape.tidy.lt u hu
  rcases A.inBody.1 h with h | h | h
  · exact h
  · omega
  · omega

theorem Adds.ssa : Ssa (noThrows g) := by
  have hs := A.code.ssa
  refine ⟨?_, ?_, ?_, ?_, ?_⟩
  · intro c z hz ho u hu hr
    rcases A.place hz with ⟨c0, h1, h2, h3, h4, h5⟩ | ⟨h1, h2⟩ | ⟨h1, h2⟩
    · rw [A.insn_old (A.ltB h2)] at ho hr
      have hl := A.liveOld ⟨c0, h1, h2⟩ hr
      have hu' := A.inOld hu hl
      refine A.dom hu' (hs.uses c0 z h2 ho u hu' hr) h3 (fun k hm => ?_) h1
      obtain ⟨l, r, e1⟩ := List.append_of_mem (h4 k)
      have := A.code.ordered b A.reachB l z (r ++ d :: B) (show f.body b = _ by rw [A.split, e1]; simp) ho u (by
        exact List.mem_cons_of_mem _ (List.mem_append_right _ hm))
      omega
    · rw [h2, A.insn_j, Edit.refs_pos, Adds.operand] at hr
      subst hr
      have hu' := A.inOld hu A.liveY
      refine A.dom hu' (hs.uses b d (show d ∈ f.body b by rw [A.split]; simp) (by rw [Ne, noThrows_op (by simp) (by simp), A.div]; simp) u hu' ?_) (.inl h1) (fun _ => A.ySafe) A.guard.inF
      rw [Edit.refs_pos]
      rcases noThrows_cases f d with ⟨e1, _⟩ | ⟨_, _, e2⟩
      · rw [e1]; exact A.uses
      · rw [A.div] at e2; cases e2
    · rw [h2, A.insn_r, Edit.refs_pos] at hr
      simp [operands, retOne, raw, const32, mkThrow] at hr
  · intro c z hz ho p u hm hu
    rcases A.place hz with ⟨c0, h1, h2, h3, h4, h5⟩ | ⟨h1, h2⟩ | ⟨h1, h2⟩
    · rw [A.insn_old (A.ltB h2)] at ho hm
      have hr : 0 < refs ((noThrows f).insn z) u := by
        rw [Edit.refs_pos]
        unfold operands
        rw [if_pos ho]
        exact List.mem_append_left _ (List.mem_append_right _ (List.mem_map.2 ⟨_, hm, rfl⟩))
      have hu' := A.inOld hu (A.liveOld ⟨c0, h1, h2⟩ hr)
      have hp : p ∈ f.allBbs := (A.code.insn z ⟨c0, h1, h2⟩).labels _ hm
      rw [(noThrows_bb f z).2.2] at hm
      refine A.dom hu' (hs.phiUses c0 z h2 ho p u (by rw [(noThrows_bb f z).2.2]; exact hm) hu') (.inl rfl) (fun k => ?_) hp
      exact absurd k (A.labels z ⟨c0, h1, h2⟩ ((noThrows_op (by simp) (by simp)).1 ho) _ hm)
    · rw [h2, A.insn_j] at ho; cases ho
    · rw [h2, A.insn_r] at ho; cases ho
  · intro c z hz ho p l hl he
    rcases A.place hz with ⟨c0, h1, h2, h3, h4, h5⟩ | ⟨h1, h2⟩ | ⟨h1, h2⟩
    · rw [A.insn_old (A.ltB h2)] at ho ⊢
      have hcn : c ≠ n := fun k => A.tail (h5 k) ((noThrows_op (by simp) (by simp)).1 ho)
      have hcc : c = c0 := h3.resolve_right fun k => hcn k.1
      subst hcc
      obtain ⟨w1, c1, r1, e1, w2⟩ := A.walk hl
      cases e1
      rcases A.edge he with ⟨k1, k2⟩ | ⟨k1, k2⟩ | ⟨k1, k2, k3, k4⟩
      · exfalso
        rcases k2 with k2 | k2
        · exact (A.nB h1).1 k2
        · exact (A.nB h1).2 k2
      · exfalso
        obtain ⟨r', rfl⟩ := w2 (.inl k1)
        rw [olds_new (.inl k1), olds_cons (A.nB A.guard.inF)] at w1
        obtain ⟨v, hv⟩ := hs.phiAll c z h2 ho b _ w1 k2
        rw [(noThrows_bb f z).2.2] at hv
        exact A.labels z ⟨c, h1, h2⟩ ((noThrows_op (by simp) (by simp)).1 ho) _ hv rfl
      · rw [olds_cons ⟨k2, k3⟩] at w1
        exact hs.phiAll c z h2 ho p _ w1 k4
    · rw [h2, A.insn_j] at ho; cases ho
    · rw [h2, A.insn_r] at ho; cases ho
  · intro z hz ho
    have e0 : (noThrows g).entry = f.entry := A.guard.entry
    rw [e0] at hz
    rcases A.place hz with ⟨c0, h1, h2, h3, h4, h5⟩ | ⟨h1, h2⟩ | ⟨h1, h2⟩
    · have hcc : f.entry = c0 := h3.resolve_right fun k => (A.nB A.shape.entry).1 k.1
      subst hcc
      rw [A.insn_old (A.ltB h2)] at ho
      exact hs.entry z h2 ho
    · rw [h2, A.insn_j] at ho; cases ho
    · rw [h2, A.insn_r] at ho; cases ho
  · intro c z hz ho a ha
    exfalso
    rcases A.place hz with ⟨c0, h1, h2, h3, h4, h5⟩ | ⟨h1, h2⟩ | ⟨h1, h2⟩
    · rw [A.insn_old (A.ltB h2)] at ho
      have := lifted_not (A.code.insn z ⟨c0, h1, h2⟩).op
      rcases ho with ho | ho
      · exact this.2.2.1 ho
      · exact this.2.2.2.1 ho
    · rw [h2, A.insn_j] at ho; rcases ho with ho | ho <;> cases ho
    · rw [h2, A.insn_r] at ho; rcases ho with ho | ho <;> cases ho

theorem Adds.ordered : Ordered (noThrows g) := by
  intro c hc l z r e1 ho u hu
  have e1' : g.body c = l ++ z :: r := e1
  have key : ∀ {c0 l0 r0}, c0 ∈ f.allBbs → f.body c0 = l0 ++ z :: r0 → (∀ w ∈ z :: r, w ∈ z :: r0 ∨ w = f.next + 1) → refs ((noThrows g).insn z) u = 0 := by
    intro c0 l0 r0 h1 h2 h3
    have hz : z ∈ f.body c0 := by rw [h2]; simp
    rw [A.insn_old (A.ltB hz)] at ho ⊢
    rcases h3 u hu with h4 | h4
    · exact A.code.ordered c0 (A.code.reach h1) l0 z r0 h2 ho u h4
    · apply Classical.byContradiction
      intro hn
      have := A.shape.tidy.lt u (A.liveOld ⟨c0, h1, hz⟩ (Nat.pos_of_ne_zero hn))
      omega
  rcases A.place (c := c) (x := z) (by rw [e1']; simp) with ⟨c0, h1, h2, h3, h4, h5⟩ | ⟨h1, h2⟩ | ⟨h1, h2⟩
  · by_cases k1 : c = n
    · rw [k1, A.guard.bodyN] at e1'
      exact key (c0 := b) (l0 := hd ++ l) (r0 := r) A.guard.inF (by rw [A.split, e1']; simp) fun w hw => .inl hw
    · have hcc : c = c0 := h3.resolve_right fun k => k1 k.1
      subst hcc
      by_cases k2 : c = b
      · subst k2
        rw [A.bodyB] at e1'
        have hnd := A.shapeG.tidy.nodup c (A.guard.mem_all.2 (.inl h1))
        rw [A.bodyB] at hnd
        rcases List.append_eq_append_iff.1 e1' with ⟨as, e2, e3⟩ | ⟨bs, e2, e3⟩
        · exfalso
          have hz : z ∈ [f.next + 1] := by rw [e3]; simp
          have := A.ltB h2
          simp at hz
          omega
        · cases bs with
          | nil =>
            simp at e3
            have := A.ltB h2
            omega
          | cons w bs =>
            simp at e3
            obtain ⟨rfl, e3⟩ := e3
            refine key (c0 := c) (l0 := l) (r0 := bs ++ d :: B) h1 (by rw [A.split, e2]; simp) fun w hw => ?_
            rw [e3] at hw
            simp at hw ⊢
            rcases hw with h | h | h
            · exact .inl (.inl h)
            · exact .inl (.inr (.inl h))
            · exact .inr h
      · rw [A.bodyOther k2 k1 (A.nB h1).2] at e1'
        exact key (c0 := c) h1 e1' fun w hw => .inl hw
  · rw [h1, A.bodyB] at e1'
    have hr : r = [] := by
      rcases List.eq_nil_or_concat r with h | ⟨r', w, h⟩
      · exact h
      · exfalso
        rw [h, List.concat_eq_append] at e1'
        have e2 : hd ++ [f.next + 1] = (l ++ z :: r') ++ [w] := by rw [e1']; simp
        have e3 := List.append_inj_left' e2 rfl
        have := A.ltB (c := b) (x := z) (by rw [A.split, e3]; simp)
        omega
    subst hr
    have : u = z := by simpa using hu
    rw [this, h2, A.insn_j]
    apply Classical.byContradiction
    intro hn
    have h3 := Adds.operand.1 (Edit.refs_pos.1 (Nat.pos_of_ne_zero hn))
    have := A.shape.tidy.lt y A.liveY
    omega
  · rw [h2, A.insn_r]
    apply Classical.byContradiction
    intro hn
    have := Edit.refs_pos.1 (Nat.pos_of_ne_zero hn)
    simp [operands, retOne, raw, const32, mkThrow] at this

theorem Adds.empty {c : Nat} (hc : c ∉ g.allBbs) : g.body c = [] := by
  rw [A.other c hc]
  exact A.code.ok.only c fun h => hc (A.guard.mem_all.2 (.inl h))

omit A in
theorem noThrows_code (k : Fn) (c : Nat) : codeOf (noThrows k) c = codeOf k c := by
  unfold codeOf
  have : (fun x => ((noThrows k).insn x).op == .phi) = fun x => (k.insn x).op == .phi := by
    funext x
    have := noThrows_op (f := k) (x := x) (o := .phi) (by simp) (by simp)
    by_cases h : (k.insn x).op = .phi
    · rw [this.2 h, h]
    · rw [beq_eq_false_iff_ne.2 h, beq_eq_false_iff_ne.2 fun h' => h (this.1 h')]
  exact congrArg (fun p => List.dropWhile p (k.body c)) this

theorem Adds.ok : Ok (noThrows g) where
  tidy := noThrows_tidy A.shapeG.tidy
  users := by
    intro u hu
    have hu' := A.guard.live.1 hu
    have H := A.code.ok.users
    have new : ∀ x, refs ((noThrows g).insn (f.next + 1)) x = (operands (jump y n e)).count (.insn x) := fun x => by rw [A.insn_j, Edit.refs_eq]
    have rz : ∀ x, refs ((noThrows g).insn f.next) x = 0 := fun x => by
      apply Classical.byContradiction
      intro hn
      rw [A.insn_r] at hn
      have := Edit.refs_pos.1 (Nat.pos_of_ne_zero hn)
      simp [operands, retOne, raw, const32, mkThrow] at this
    have oldRef : ∀ x, Live f x → u = f.next ∨ u = f.next + 1 → refs ((noThrows g).insn x) u = 0 := fun x hx k => by
      apply Classical.byContradiction
      intro hn
      rw [A.insn_old (A.shape.tidy.lt x hx)] at hn
      have := A.shape.tidy.lt u (A.shape.tidy.closed x u hx (noThrows_refs f x u (Nat.pos_of_ne_zero hn)))
      omega
    have hU : ∀ x, ((noThrows g).users u).count x = _ := fun x => A.users u x
    refine ⟨fun x hx => ?_, fun x hx => ?_⟩
    · rw [← List.count_pos_iff, hU]
      rcases A.guard.live.1 hx with hx' | hx' | hx'
      · have hlt := A.shape.tidy.lt x hx'
        rw [if_neg (show ¬ x = f.next + 1 by omega)]
        split
        · rename_i k
          rw [oldRef x hx' k]
          simp
        · rename_i k
          have hul : Live f u := hu'.resolve_right k
          rw [A.insn_old hlt]
          have := (H u hul).1 x hx'
          rw [← List.count_pos_iff] at this
          exact this
      · have hlt : ¬ Live f x := fun h => by have := A.shape.tidy.lt x h; omega
        rw [hx', rz, if_neg (show ¬ f.next = f.next + 1 by omega)]
        split
        · simp
        · rename_i k
          have hul : Live f u := hu'.resolve_right k
          have : (f.users u).count f.next = 0 := List.count_eq_zero.2 fun hm => hlt (by rw [hx']; exact (H u hul).2 _ hm)
          omega
      · have hlt : ¬ Live f x := fun h => by have := A.shape.tidy.lt x h; omega
        rw [hx', new, if_pos rfl]
        split
        · omega
        · rename_i k
          have hul : Live f u := hu'.resolve_right k
          have : (f.users u).count (f.next + 1) = 0 := List.count_eq_zero.2 fun hm => hlt (by rw [hx']; exact (H u hul).2 _ hm)
          omega
    · rw [← List.count_pos_iff, hU] at hx
      refine A.guard.live.2 ?_
      by_cases k : x = f.next + 1
      · exact .inr (.inr k)
      · rw [if_neg k] at hx
        split at hx
        · omega
        · rename_i k'
          exact .inl ((H u (hu'.resolve_right k')).2 x (List.count_pos_iff.1 (show 0 < (f.users u).count x by omega)))
  phis := by
    intro c x hx ho
    rw [noThrows_code] at hx
    rw [noThrows_op (by simp) (by simp)] at ho
    by_cases hc : c ∈ g.allBbs
    · exact A.shapeG.phis c hc x hx ho
    · unfold codeOf at hx
      rw [A.empty hc] at hx
      cases hx
  only := fun c hc => A.empty hc

theorem Adds.last : EndsLast (noThrows g) := by
  intro c l z r e1 hz
  have e1' : g.body c = l ++ z :: r := e1
  rw [noThrows_ends] at hz
  by_cases hc : c ∈ g.allBbs
  · exact A.shapeG.last c hc l z r e1' hz
  · rw [A.empty hc] at e1'
    simp at e1'

theorem Adds.route {c : Nat} (hc : c ∈ g.allBbs) : Route (noThrows g) c := by
  rcases A.guard.mem_all.1 hc with h | h | h
  · by_cases k : c = b
    · subst k
      exact .cond (f.next + 1) hd A.bodyB (by rw [A.insn_j]; rfl) (by rw [A.insn_j]; exact A.succsB)
    · have hb : (noThrows g).body c = (noThrows f).body c := A.bodyOther k (A.nB h).1 (A.nB h).2
      have hs : (noThrows g).succs c = (noThrows f).succs c := A.succsOther k (A.nB h).1 (A.nB h).2
      have hi : ∀ x ∈ (noThrows f).body c, (noThrows g).insn x = (noThrows f).insn x := fun x hx => A.insn_old (A.ltB hx)
      cases A.code.route c h with
      | fall t h1 h2 => exact .fall t (fun x hx => by rw [hb] at hx; rw [hi x hx]; exact h1 x hx) (by rw [hs]; exact h2)
      | ja x pre h1 h2 h3 => have i := hi x (by rw [h1]; simp); exact .ja x pre (by rw [hb]; exact h1) (by rw [i]; exact h2) (by rw [hs, i]; exact h3)
      | cond x pre h1 h2 h3 => have i := hi x (by rw [h1]; simp); exact .cond x pre (by rw [hb]; exact h1) (by rw [i]; exact h2) (by rw [hs, i]; exact h3)
      | ret x pre h1 h2 h3 => have i := hi x (by rw [h1]; simp); exact .ret x pre (by rw [hb]; exact h1) (by rw [i]; exact h2) (by rw [hs]; exact h3)
  · subst h
    have hs : (noThrows g).succs c = (noThrows f).succs b := A.succsN
    have hi : ∀ x ∈ d :: B, (noThrows g).insn x = (noThrows f).insn x := fun x hx => A.insn_old (A.ltB (c := b) (by rw [A.split]; exact List.mem_append_right _ hx))
    have cutLast : ∀ {x : Nat} {pre : List Nat}, (noThrows f).body b = pre ++ [x] → ∃ pre', d :: B = pre' ++ [x] := by
      intro x pre h1
      have h1' : hd ++ d :: B = pre ++ [x] := by rw [← A.split]; exact h1
      rcases List.eq_nil_or_concat (d :: B) with k | ⟨L, w, k⟩
      · cases k
      · rw [List.concat_eq_append] at k
        rw [k, ← List.append_assoc] at h1'
        have := List.append_inj_right' h1' rfl
        exact ⟨L, by rw [k, this]⟩
    cases A.code.route b A.guard.inF with
    | fall t h1 h2 => exact .fall t (fun x hx => by
        have hx' : x ∈ d :: B := by rw [← A.guard.bodyN]; exact hx
        rw [hi x hx']; exact h1 x (show x ∈ f.body b by rw [A.split]; exact List.mem_append_right _ hx')) (by rw [hs]; exact h2)
    | ja x pre h1 h2 h3 =>
      obtain ⟨pre', k⟩ := cutLast h1
      have i := hi x (by rw [k]; simp)
      exact .ja x pre' (A.guard.bodyN.trans k) (by rw [i]; exact h2) (by rw [hs, i]; exact h3)
    | cond x pre h1 h2 h3 =>
      obtain ⟨pre', k⟩ := cutLast h1
      have i := hi x (by rw [k]; simp)
      exact .cond x pre' (A.guard.bodyN.trans k) (by rw [i]; exact h2) (by rw [hs, i]; exact h3)
    | ret x pre h1 h2 h3 =>
      obtain ⟨pre', k⟩ := cutLast h1
      have i := hi x (by rw [k]; simp)
      exact .ret x pre' (A.guard.bodyN.trans k) (by rw [i]; exact h2) (by rw [hs]; exact h3)
  · subst h
    exact .ret f.next [] A.guard.bodyE (by rw [A.insn_r]; rfl) A.succsE

theorem Adds.first : g.preds g.entry = [] := by
  have h0 : f.preds f.entry = [] := A.code.first
  have hn := A.nB A.shape.entry
  rw [A.guard.entry, A.guard.preds, if_neg (by rintro (h | h); exact hn.1 h; exact hn.2 h), if_neg, h0]
  intro hm
  have := (A.shape.graph.sym b A.guard.inF f.entry A.shape.entry).1 hm
  rw [h0] at this
  cases this

theorem Adds.conn {c : Nat} (hc : c ∈ g.allBbs) : Conn (noThrows g) c := by
  have hB : Conn (noThrows g) b → Conn (noThrows g) n ∧ Conn (noThrows g) e := fun k =>
    ⟨.step k (show n ∈ g.succs b by rw [A.succsB]; simp), .step k (show e ∈ g.succs b by rw [A.succsB]; simp)⟩
  have old : ∀ c, Conn (noThrows f) c → Conn (noThrows g) c := by
    intro c h
    induction h with
    | entry => have := Conn.entry (f := noThrows g); rwa [show (noThrows g).entry = (noThrows f).entry from A.guard.entry] at this
    | @step a t h1 h2 ih =>
      have ha : a ∈ f.allBbs := Count.Conn.mem A.code.shape h1
      by_cases k : a = b
      · rw [k] at ih h2
        exact .step (hB ih).1 (show t ∈ g.succs n by rw [A.succsN]; exact h2)
      · exact .step ih (show t ∈ g.succs a by rw [A.succsOther k (A.nB ha).1 (A.nB ha).2]; exact h2)
  have hb := old b (A.code.conn b A.guard.inF)
  rcases A.guard.mem_all.1 hc with h | h | h
  · exact old c (A.code.conn c h)
  · rw [h]; exact (hB hb).1
  · rw [h]; exact (hB hb).2

theorem Adds.graph : Graph (noThrows g) := by
  have h := A.shapeG.graph
  exact ⟨h.sym, h.succs, h.preds⟩

omit A in
theorem max_range : ∀ (l : List Nat) (N : Nat), 0 < N → (∀ c, c ∈ l → c < N) → l.foldr max 0 < N
  | [], _, h, _ => h
  | a :: l, N, h, k => by
    have := max_range l N h fun c hc => k c (List.mem_cons_of_mem _ hc)
    have := k a (List.mem_cons_self ..)
    simp only [List.foldr_cons]
    omega

omit A in
theorem le_max : ∀ (l : List Nat) (c : Nat), c ∈ l → c ≤ l.foldr max 0
  | a :: l, c, h => by
    simp only [List.foldr_cons]
    rcases List.mem_cons.1 h with rfl | h
    · omega
    · have := le_max l c h
      omega

theorem Adds.jaB : (graphOf g b).jaTo = none := by
  have : lastOf g b = .cond n e := by
    unfold lastOf
    rw [A.bodyB, List.getLast?_append]
    simp only [List.getLast?_singleton, Option.some_or, A.guard.insn_j]
    rfl
  simp [graphOf, Layout.Blk.jaTo, this]

theorem Adds.lastN : lastOf g n = lastOf f b := by
  unfold lastOf
  rw [A.guard.bodyN, A.split, List.getLast?_append]
  cases h : (d :: B).getLast? with
  | none => simp at h
  | some x =>
    have hx : x ∈ f.body b := by rw [A.split]; exact List.mem_append_right _ (List.mem_of_getLast? h)
    simp only [Option.some_or]
    rw [A.guard.insn_old (A.ltB hx)]

theorem Adds.lastOther {c : Nat} (h1 : c ≠ b) (h2 : c ≠ n) (h3 : c ≠ e) : lastOf g c = lastOf f c := by
  unfold lastOf
  rw [A.bodyOther h1 h2 h3]
  cases h : (f.body c).getLast? with
  | none => rfl
  | some x =>
    dsimp only
    rw [A.guard.insn_old (A.ltB (List.mem_of_getLast? h))]

/-- Where control runs on. -/
theorem Adds.falls {a c : Nat} (h : Layout.Falls (graphOf g) a c) : (a = b ∧ c = n) ∨ (a = n ∧ Layout.Falls (graphOf f) b c) ∨ (a ≠ b ∧ a ≠ n ∧ a ≠ e ∧ Layout.Falls (graphOf f) a c) := by
  unfold Layout.Falls at h ⊢
  have hs : ∀ c, (graphOf g c).succs = g.succs c := fun _ => rfl
  have hs' : ∀ c, (graphOf f c).succs = f.succs c := fun _ => rfl
  have hj : ∀ {c c' : Nat}, lastOf g c = lastOf f c' → (graphOf g c).jaTo = (graphOf f c').jaTo := fun {c c'} k => by simp [graphOf, Layout.Blk.jaTo, k]
  simp only [hs, hs'] at h ⊢
  by_cases h1 : a = b
  · subst h1
    refine .inl ⟨rfl, ?_⟩
    rw [A.succsB] at h
    rcases h with ⟨h, _⟩ | ⟨t, h⟩
    · simp at h
    · simp at h; exact h.1.symm
  · by_cases h2 : a = n
    · subst h2
      refine .inr (.inl ⟨rfl, ?_⟩)
      rw [A.succsN, hj A.lastN] at h
      exact h
    · by_cases h3 : a = e
      · subst h3
        rw [A.succsE] at h
        simp at h
      · refine .inr (.inr ⟨h1, h2, h3, ?_⟩)
        rw [A.succsOther h1 h2 h3, hj (A.lastOther h1 h2 h3)] at h
        exact h

theorem Adds.wf : ∃ N, Layout.WF (graphOf (noThrows g)) (noThrows g).entry N ∧ ∀ c, c < N → c ∈ (noThrows g).allBbs := by
  obtain ⟨N, w, hN⟩ := A.code.wf
  rw [noThrows_graph] at w
  rw [noThrows_graph]
  have hN' : ∀ c, c < N → c ∈ f.allBbs := hN
  have hlt : ∀ c, c ∈ f.allBbs → c < N := by
    intro c hc
    have : ∀ c, Conn (noThrows f) c → c < N := by
      intro c h
      induction h with
      | entry => exact w.entry_lt
      | step _ h2 ih => exact w.bound _ ih _ h2
    exact this c (A.code.conn c hc)
  have hfr : freshBb f = N := by
    unfold freshBb
    have h0 : 0 < N := Nat.lt_of_le_of_lt (Nat.zero_le _) w.entry_lt
    have h1 := max_range f.allBbs N h0 hlt
    have h2 := le_max f.allBbs (N - 1) (hN' _ (by omega))
    omega
  have hn : n = N := A.newN.trans hfr
  have he : e = N + 1 := by rw [A.newE, hfr]
  have hmem : ∀ c, c < N + 2 ↔ c ∈ g.allBbs := by
    intro c
    rw [A.guard.mem_all]
    constructor
    · intro h
      by_cases k : c < N
      · exact .inl (hN' c k)
      · omega
    · rintro (h | h | h)
      · have := hlt c h; omega
      · omega
      · omega
  have hg := A.shapeG.graph
  have hs : ∀ c, (graphOf g c).succs = g.succs c := fun _ => rfl
  have hp : ∀ c, (graphOf g c).preds = g.preds c := fun _ => rfl
  have hsub : ∀ {a c}, Layout.Falls (graphOf f) a c → a ∈ f.allBbs → c ∈ f.allBbs := fun k ha => (A.shape.graph.succs _ ha).2 _ (Layout.falls_succ k)
  have hbm := A.guard.inF
  refine ⟨N + 2, ⟨?_, ?_, ?_, ?_, ?_, ?_, ?_, ?_, ?_, ?_, ?_⟩, fun c hc => (hmem c).1 hc⟩
  · have : f.entry < N := w.entry_lt
    show g.entry < N + 2
    rw [A.guard.entry]; omega
  · intro c hc t ht; exact (hmem t).2 ((hg.succs c ((hmem c).1 hc)).2 t ht)
  · intro c hc t ht; exact (hmem t).2 ((hg.preds c ((hmem c).1 hc)).2 t ht)
  · intro c hc
    rw [hs]
    have := A.route ((hmem c).1 hc)
    cases this with
    | fall t h1 h2 => have h2' : g.succs c = _ := h2; rw [h2']; simp
    | ja x pre h1 h2 h3 => have h3' : g.succs c = _ := h3; rw [h3']; simp
    | cond x pre h1 h2 h3 => have h3' : g.succs c = _ := h3; rw [h3']; simp
    | ret x pre h1 h2 h3 => have h3' : g.succs c = _ := h3; rw [h3']; simp
  · intro c t ht
    rw [hs]
    by_cases hc : c ∈ g.allBbs
    · have hl : lastOf g c = .ja t := by
        unfold graphOf Layout.Blk.jaTo at ht
        dsimp only at ht
        revert ht
        cases lastOf g c <;> simp
      rcases (A.route hc).last with ⟨t', k1, k2⟩ | ⟨t', e', k1, k2⟩ | ⟨k1, _, _⟩
      · rw [noThrows_last, hl] at k1
        cases k1
        exact k2
      · rw [noThrows_last, hl] at k1
        cases k1
      · exact absurd (by rw [noThrows_last]; exact hl) (k1 t)
    · exfalso
      have : lastOf g c = .none := by unfold lastOf; rw [A.empty hc]; rfl
      unfold graphOf Layout.Blk.jaTo at ht
      dsimp only at ht
      rw [this] at ht
      cases ht
  · intro a c ha hc
    have ha' := (hmem a).1 ha
    exact (hg.sym a ha' c ((hg.succs a ha').2 c hc)).1 hc
  · intro a c hc ha
    have hc' := (hmem c).1 hc
    exact (hg.sym a ((hg.preds c hc').2 a ha) c hc').2 ha
  · intro c hc; exact (hg.preds c ((hmem c).1 hc)).1
  · intro a a' c ha ha' k1 k2
    have old : ∀ {a}, a < N + 2 → a ≠ n → a ≠ e → a < N := fun h1 h2 h3 => by omega
    have fresh : ∀ {a}, a ∈ f.allBbs → Layout.Falls (graphOf f) a n → False := fun h1 h2 => A.guard.freshN (hsub h2 h1)
    rcases A.falls k1 with ⟨p1, p2⟩ | ⟨p1, p2⟩ | ⟨p1, p2, p3, p4⟩ <;> rcases A.falls k2 with ⟨q1, q2⟩ | ⟨q1, q2⟩ | ⟨q1, q2, q3, q4⟩
    · rw [p1, q1]
    · exact (fresh hbm (p2 ▸ q2)).elim
    · exact (fresh (hN' _ (old ha' q2 q3)) (p2 ▸ q4)).elim
    · exact (fresh hbm (q2 ▸ p2)).elim
    · rw [p1, q1]
    · exact absurd (w.uniq b a' c (hlt b hbm) (old ha' q2 q3) p2 q4).symm q1
    · exact (fresh (hN' _ (old ha p2 p3)) (q2 ▸ p4)).elim
    · exact absurd (w.uniq a b c (old ha p2 p3) (hlt b hbm) p4 q2) p1
    · exact w.uniq a a' c (old ha p2 p3) (old ha' q2 q3) p4 q4
  · obtain ⟨rank, hr⟩ := w.acyclic
    refine ⟨fun c => if c = n then 2 * rank b + 1 else 2 * rank c, fun a c ha k => ?_⟩
    dsimp only
    rcases A.falls k with ⟨p1, p2⟩ | ⟨p1, p2⟩ | ⟨p1, p2, p3, p4⟩
    · rw [p1, p2, if_neg A.guard.hbn, if_pos rfl]; omega
    · have := hr b c (hlt b hbm) p2
      rw [if_pos p1, if_neg (A.nB (hsub p2 hbm)).1]; omega
    · have ha' : a < N := by omega
      have := hr a c ha' p4
      rw [if_neg p2, if_neg (A.nB (hsub p4 (hN' a ha'))).1]; omega
  · intro a ha k
    have e0 : (noThrows g).entry = f.entry := A.guard.entry
    rw [e0] at k
    rcases A.falls k with ⟨p1, p2⟩ | ⟨p1, p2⟩ | ⟨p1, p2, p3, p4⟩
    · exact (A.nB A.shape.entry).1 p2
    · exact w.entry_head b (hlt b hbm) p2
    · exact w.entry_head a (by omega) p4

theorem Adds.nice {v : Val} (h : Nice (noThrows f) v) : Nice (noThrows g) v := by
  rcases h with h | ⟨u, e1, h⟩
  · exact .inl h
  · refine .inr ⟨u, e1, ?_⟩
    rcases h with h | h | ⟨h, hv⟩
    · exact .inl (h.trans A.guard.sp.symm)
    · exact .inr (.inl (by rw [show (noThrows g).args = f.args from A.guard.args]; exact h))
    · obtain ⟨c, hc, hx⟩ := h
      exact .inr (.inr ⟨A.inBody.2 (.inl ⟨c, hc, hx⟩), by rw [A.insn_old (A.ltB hx)]; exact hv⟩)

theorem Adds.fact {x : Nat} (hx : InBody g x) : Fact (noThrows g) ((noThrows g).insn x) := by
  have new : ∀ i : Insn, liftedOp i.op → i.op ≠ .call → i.op ≠ .phi → i.phi = [] → i.addr = .undef → (∀ m, arity i.op = some m → i.vals.length = m) → (i.op.binAlu = true ∨ i.op.condJmp = true → i.aluOp = .w64) →
      (i.op ≠ .htobe ∧ i.op ≠ .htole ∧ raw i.op = false ∧ i.op ≠ .loadimm) → (∀ v ∈ i.vals, Nice (noThrows g) v) → Fact (noThrows g) i := by
    intro i h1 h2 h3 h4 h5 h6 h7 h8 h9
    have hno := lifted_not h1
    have hraw : i.op ≠ .loadraw ∧ i.op ≠ .storeraw := by
      constructor <;> (intro k; have := h8.2.2.1; rw [k] at this; cases this)
    refine ⟨h1, ⟨h6, ?_, ?_, ?_, ?_, ?_, ?_, ?_, ?_, ?_⟩, ?_, ?_, ?_, ?_, by rw [h4]; exact List.nodup_nil, fun k => absurd k h8.2.2.2⟩
    · rintro (k | k); exact absurd k h8.1; exact absurd k h8.2.1
    · rintro (k | k); exact absurd k hno.2.2.2.1; exact absurd k hno.2.2.1
    · intro k; exact absurd k hno.2.2.2.2.2.1
    · intro k; exact absurd k h2
    · intro k; exact .inr (h7 k)
    · rintro (k | k | k); exact absurd k hno.1; exact absurd k hraw.1; exact absurd k hraw.2
    · intro v hv
      rcases h9 v hv with ⟨k, c, rfl⟩ | ⟨u, rfl, _⟩
      · cases k <;> simp [ConstOk]
      · trivial
    · intro k; exact absurd k h3
    · rintro (k | k); exact absurd k hraw.1; exact absurd k hraw.2
    · intro k; exact absurd k h2
    · intro _; exact h5
    · intro v hv
      unfold operands at hv
      rw [if_neg h3, h8.2.2.1] at hv
      exact h9 v (by simpa using hv)
    · rw [h4]; simp
  rcases A.inBody.1 hx with h | h | h
  · obtain ⟨c, hc, hm⟩ := h
    have k := A.code.insn x ⟨c, hc, hm⟩
    rw [A.insn_old (A.ltB hm)]
    have hno := lifted_not k.op
    refine ⟨k.op, ⟨k.chk.arity, k.chk.swap, ?_, ?_, k.chk.fid, k.chk.width, k.chk.size, k.chk.consts, k.chk.phiConsts, k.chk.addrConst⟩, k.call, k.addr, fun v hv => A.nice (k.vals v hv), fun o ho => ?_, k.once, k.imm⟩
    · rintro (k | k); exact absurd k hno.2.2.2.1; exact absurd k hno.2.2.1
    · intro k; exact absurd k hno.2.2.2.2.2.1
    · exact A.guard.mem_all.2 (.inl (k.labels o ho))
  · rw [h, A.insn_r]
    refine new retOne (by simp [liftedOp, retOne]) (by simp [retOne]) (by simp [retOne]) rfl rfl (by intro m hm; cases hm; rfl) (by rintro (h | h) <;> cases h) ⟨by simp [retOne], by simp [retOne], rfl, by simp [retOne]⟩ ?_
    intro v hv
    have : v = const32 1 := by simpa [retOne] using hv
    exact .inl ⟨_, 1, this.trans rfl⟩
  · rw [h, A.insn_j]
    refine new (jump y n e) (by simp [liftedOp, jump, Edit.mkJbin, Norm.Op.condJmp]) (by simp [jump, Edit.mkJbin]) (by simp [jump, Edit.mkJbin]) rfl rfl (by intro m hm; cases hm; rfl) (fun _ => rfl)
      ⟨by simp [jump, Edit.mkJbin], by simp [jump, Edit.mkJbin], rfl, by simp [jump, Edit.mkJbin]⟩ ?_
    intro v hv
    have : v = .insn y ∨ v = const32 0 := by simpa [jump, Edit.mkJbin] using hv
    rcases this with h | h
    · rw [h]
      refine A.nice ((A.code.insn d A.inD).vals _ ?_)
      rcases noThrows_cases f d with ⟨e1, _⟩ | ⟨_, _, e2⟩
      · rw [e1]; exact A.uses
      · rw [A.div] at e2; cases e2
    · exact .inl ⟨_, 0, h.trans rfl⟩

theorem Adds.codeG : Code (noThrows g) where
  ok := A.ok
  ssa := A.ssa
  ordered := A.ordered
  last := A.last
  graph := A.graph
  route := fun _ hc => A.route hc
  entry := A.shapeG.entry
  first := A.first
  conn := fun _ hc => A.conn hc
  wf := A.wf
  insn := fun _ hx => A.fact hx
  fixed := fun u hu => by
    have hu' : u = f.sp ∨ u ∈ f.args := by
      rcases hu with h | h
      · exact .inl (h.trans A.guard.sp)
      · exact .inr (by rw [← A.guard.args]; exact h)
    rw [A.insn_old (A.shape.tidy.lt u (hu'.imp id .inl))]
    exact A.code.fixed u hu'
  reg := by
    have : (noThrows g).sp = f.sp := A.guard.sp
    rw [this, A.insn_old (A.shape.tidy.lt f.sp (.inl rfl))]
    exact A.code.reg
  five := by rw [show (noThrows g).args = f.args from A.guard.args]; exact A.code.five
  distinct := by rw [show (noThrows g).args = f.args from A.guard.args]; exact A.code.distinct
  sp := by rw [show (noThrows g).args = f.args from A.guard.args, show (noThrows g).sp = f.sp from A.guard.sp]; exact A.code.sp

end

end Verif.Pipe
