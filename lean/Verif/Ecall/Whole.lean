import Verif.Ecall.Lemmas
/-!
# The loops, and the whole pass
-/
namespace Verif.Ecall
open Verif Verif.IR Verif.Edit Verif.Guard

theorem LoadDone.congr {f g g' : Fn} {m x c : Nat} {ns : List Nat} (h : LoadDone f m g x ns c) (hn : ∀ z ∈ ns, g'.insn z = g.insn z)
    (hx : g'.insn x = g.insn x) : LoadDone f m g' x ns c := by
  obtain ⟨ks, v, a, s, p, j, n, e, rfl, hk, h1, h2, h3, h4, h5, h6⟩ := h
  refine ⟨ks, v, a, s, p, j, n, e, rfl, ?_, ?_, ?_, ?_, ?_, ?_, ?_⟩
  · rcases hk with hk | ⟨k1, y, rfl, k2, k3⟩
    · exact .inl hk
    · exact .inr ⟨k1, y, rfl, k2, by rw [hn y (by simp)]; exact k3⟩
  · rw [hn a (by simp)]; exact h1
  · rw [hn s (by simp)]; exact h2
  · rw [hn p (by simp)]; exact h3
  · rw [hn c (by simp)]; exact h4
  · rw [hn j (by simp)]; exact h5
  · rw [hx]; exact h6

theorem StoreDone.congr {f g g' : Fn} {m x : Nat} {ns : List Nat} (h : StoreDone f m g x ns) (hn : ∀ z ∈ ns, g'.insn z = g.insn z)
    (hx : g'.insn x = g.insn x) : StoreDone f m g' x ns := by
  obtain ⟨p, rfl, h1, h2⟩ := h
  exact ⟨p, rfl, by rw [hn p (by simp)]; exact h1, by rw [hx]; exact h2⟩

/-- Every address can be looked at. -/
def Seen (f : Fn) (k : Nat) : Prop := ∀ y, Live f y → ∃ t, isNonptr f k (.insn y) = .ok t

theorem onHeap_spec {f g : Fn} {pre : Nat → List Nat} {k x : Nat} (h : Inv f g pre) (hk : Seen f k) (hx : InBody f x) (hop : IsRaw (f.insn x).op)
    (hgx : g.insn x = f.insn x) : ∃ t, onHeap k g x = .ok t ∧ (t = true ↔ Heap f x) := by
  have hxl : Live f x := .inr (.inr hx)
  have ha := addr_live h.base hxl hop
  unfold onHeap
  rw [hgx]
  have hh : ∀ y, (f.insn x).addr = .insn y → (Heap f x ↔ Scalar f (.insn y)) := fun y e =>
    ⟨fun ⟨_, z, e1, e2⟩ => by rw [e] at e1; cases e1; exact e2, fun hs => ⟨hop, y, e, hs⟩⟩
  have hn : (∀ y, (f.insn x).addr ≠ .insn y) → (false = true ↔ Heap f x) := fun hne =>
    ⟨fun e => (nomatch e), fun ⟨_, z, e1, _⟩ => absurd e1 (hne z)⟩
  split
  · rename_i y e
    rw [e] at ha
    obtain ⟨t, ht⟩ := hk y ha
    rw [isNonptr_congr h.base h.kind k _ ha]
    exact ⟨t, ht, (isNonptr_spec k ht).trans (hh y e).symm⟩
  · rename_i e
    exact ⟨false, rfl, hn e⟩

theorem loop {f : Fn} {o : Op} {r : Fn → Nat → Out Fn} {D : Fn → Nat → List Nat → Prop} {k : Nat} (hk : Seen f k) (ho : IsRaw o)
    (hD : ∀ g g' x ns, D g x ns → (∀ z ∈ ns, g'.insn z = g.insn z) → g'.insn x = g.insn x → D g' x ns)
    (step : ∀ g pre x, Inv f g pre → InBody f x → (f.insn x).op = o → g.insn x = f.insn x →
      ∃ g' ns, r g x = .ok g' ∧ Inv f g' (upd pre x (pre x ++ ns)) ∧ g.next ≤ g'.next ∧
      (∀ z, z < g.next → z ≠ x → g'.insn z = g.insn z) ∧ (∀ n ∈ ns, n < g'.next) ∧ D g' x ns) :
    ∀ (xs : List Nat) (g : Fn) (pre : Nat → List Nat), Inv f g pre → xs.Nodup → (∀ x ∈ xs, InBody f x ∧ (f.insn x).op = o) →
      (∀ x ∈ xs, g.insn x = f.insn x ∧ pre x = []) →
      ∃ g' pre', heapAll k r xs g = .ok g' ∧ Inv f g' pre' ∧ g.next ≤ g'.next ∧ (∀ z, z < g.next → z ∉ xs → g'.insn z = g.insn z) ∧
        (∀ z, z ∉ xs → pre' z = pre z) ∧ (∀ x ∈ xs, (∀ n ∈ pre' x, n < g'.next) ∧ (Heap f x → D g' x (pre' x)) ∧
          (¬ Heap f x → pre' x = [] ∧ g'.insn x = f.insn x))
  | [], g, pre, h, _, _, _ => ⟨g, pre, rfl, h, Nat.le_refl _, fun _ _ _ => rfl, fun _ _ => rfl, by simp⟩
  | x :: xs, g, pre, h, hnd, hin, hold => by
    rw [List.nodup_cons] at hnd
    obtain ⟨hx, hop⟩ := hin x (by simp)
    obtain ⟨hgx, hpx⟩ := hold x (by simp)
    obtain ⟨t, ht, hth⟩ := onHeap_spec h hk hx (by rw [hop]; exact ho) hgx
    have hfn := h.next
    have hlt : ∀ z ∈ xs, z < f.next := fun z hz => h.base.lt z (.inr (.inr (hin z (List.mem_cons_of_mem _ hz)).1))
    have hxlt := h.base.lt x (.inr (.inr hx))
    have one : ∃ g1 ns, heapOne k r g x = .ok g1 ∧ Inv f g1 (upd pre x ns) ∧ g.next ≤ g1.next ∧
        (∀ z, z < g.next → z ≠ x → g1.insn z = g.insn z) ∧ (∀ n ∈ ns, n < g1.next) ∧ (Heap f x → D g1 x ns) ∧
        (¬ Heap f x → ns = [] ∧ g1.insn x = f.insn x) := by
      unfold heapOne
      rw [ht, Out.ok_bind]
      cases t with
      | true =>
        obtain ⟨g1, ns, h1, h2, h3, h4, h5, h6⟩ := step g pre x h hx hop hgx
        rw [hpx, List.nil_append] at h2
        exact ⟨g1, ns, h1, h2, h3, h4, h5, fun _ => h6, fun hn => absurd (hth.1 rfl) hn⟩
      | false =>
        refine ⟨g, [], rfl, ?_, Nat.le_refl _, fun _ _ _ => rfl, by simp, fun hh => absurd (hth.2 hh) (by simp), fun _ => ⟨rfl, hgx⟩⟩
        rw [← hpx, upd_self]; exact h
    obtain ⟨g1, ns, h1, h2, h3, h4, h5, h6, h7⟩ := one
    have hne : ∀ z ∈ xs, z ≠ x := fun z hz e => hnd.1 (e ▸ hz)
    obtain ⟨g', pre', k1, k2, k3, k4, k5, k6⟩ := loop hk ho hD step xs g1 (upd pre x ns) h2 hnd.2 (fun z hz => hin z (List.mem_cons_of_mem _ hz))
      (fun z hz => ⟨by rw [h4 z (by have := hlt z hz; omega) (hne z hz)]; exact (hold z (List.mem_cons_of_mem _ hz)).1,
        by rw [upd_ne _ _ (hne z hz)]; exact (hold z (List.mem_cons_of_mem _ hz)).2⟩)
    have hpx' : pre' x = ns := by rw [k5 x hnd.1, upd_same]
    have hxi : g'.insn x = g1.insn x := k4 x (by omega) hnd.1
    have hns : ∀ z ∈ ns, g'.insn z = g1.insn z := fun z hz => by
      refine k4 z (h5 z hz) (fun hm => ?_)
      have := hlt z hm
      have := h2.range x z (by rw [upd_same]; exact hz)
      omega
    refine ⟨g', pre', ?_, k2, by omega, fun z hz hzx => ?_, fun z hz => ?_, fun z hz => ?_⟩
    · unfold heapAll
      rw [h1, Out.ok_bind]
      exact k1
    · rw [List.mem_cons, not_or] at hzx
      rw [k4 z (by omega) hzx.2, h4 z hz hzx.1]
    · rw [List.mem_cons, not_or] at hz
      rw [k5 z hz.2, upd_ne _ _ hz.1]
    · rcases List.mem_cons.1 hz with e | hz
      · rw [e, hpx']
        refine ⟨fun n hn => by have := h5 n hn; omega, fun hh => hD g1 g' x ns (h6 hh) hns hxi, fun hh => ?_⟩
        rw [hxi]; exact h7 hh
      · exact k6 z hz

/-! ## Erasing the ecall -/

theorem erase_filter {f g : Fn} {e : Nat} (ht : Tidy f) (he : InBody f e) (h : erase f e = .ok g) {c : Nat} (hc : c ∈ f.allBbs) :
    g.body c = (f.body c).filter (· != e) := by
  obtain ⟨_, hs, _⟩ := erase_spec h
  obtain ⟨b, hb, heb⟩ := he
  have hp := ht.parent b hb e heb
  rw [hs.body]
  dsimp only
  rw [hp]
  by_cases ec : c = b
  · subst ec
    rw [upd_same, (ht.nodup c hc).erase_eq_filter]
  · rw [upd_ne _ _ ec, List.filter_eq_self.2]
    intro z hz
    have : z ≠ e := fun e' => ec (by rw [← ht.parent c hc z hz, e', hp])
    simpa using this

theorem shape_erase {f g : Fn} {e : Nat} (hs : Shape f) (hu : UsersListed f) (he : InBody f e) (hp : (f.insn e).op ≠ .phi) (h : erase f e = .ok g) :
    Shape g := by
  obtain ⟨_, hsm, _⟩ := erase_spec h
  have hi : g.insn = f.insn := hsm.insn
  have hall : g.allBbs = f.allBbs := hsm.allBbs
  have hsu : g.succs = f.succs := hsm.succs
  have hpr : g.preds = f.preds := hsm.preds
  have hfil : ∀ c ∈ f.allBbs, g.body c = (f.body c).filter (· != e) := fun c hc => erase_filter hs.tidy he h hc
  have hsub : ∀ c ∈ f.allBbs, ∀ z ∈ g.body c, z ∈ f.body c := fun c hc z hz => by rw [hfil c hc] at hz; exact (List.mem_filter.1 hz).1
  have hcut : ∀ c ∈ f.allBbs, e ∉ f.body c ∧ g.body c = f.body c ∨ ∃ A B, f.body c = A ++ e :: B ∧ g.body c = A ++ B := by
    intro c hc
    by_cases hm : e ∈ f.body c
    · obtain ⟨A, B, hl⟩ := List.append_of_mem hm
      have hnd := hs.tidy.nodup c hc
      rw [hl] at hnd
      have hA : ∀ z ∈ A, z ≠ e := fun z hz ez => (List.nodup_append.1 hnd).2.2 z hz e (by simp) ez
      have hB : ∀ z ∈ B, z ≠ e := fun z hz ez => (List.nodup_cons.1 (List.nodup_append.1 hnd).2.1).1 (ez ▸ hz)
      refine .inr ⟨A, B, hl, ?_⟩
      rw [hfil c hc, hl, List.filter_append, List.filter_cons, if_neg (by simp), List.filter_eq_self.2 (fun z hz => by simpa using hA z hz),
        List.filter_eq_self.2 (fun z hz => by simpa using hB z hz)]
    · refine .inl ⟨hm, ?_⟩
      rw [hfil c hc, List.filter_eq_self.2]
      intro z hz
      have : z ≠ e := fun ez => hm (ez ▸ hz)
      simpa using this
  refine ⟨erase_tidy hs.tidy hu he h, ⟨?_, ?_, ?_⟩, ?_, by rw [hall, hsm.entry]; exact hs.entry, ?_, ?_, ?_⟩
  · rw [hall, hsu, hpr]; exact hs.graph.sym
  · rw [hall, hsu]; exact hs.graph.succs
  · rw [hall, hpr]; exact hs.graph.preds
  · intro c hc z hz
    rw [hall] at hc
    rw [hi, hsu]
    exact hs.wired c hc z (hsub c hc z hz)
  · intro c hc z hz
    rw [hall] at hc
    rw [hi]
    unfold codeOf at hz
    rw [hi] at hz
    rcases hcut c hc with ⟨_, e1⟩ | ⟨A, B, e1, e2⟩
    · rw [e1] at hz; exact hs.phis c hc z hz
    · rw [e2, dropWhile_split] at hz
      have hB := (around hs hc e1 hp).1
      split at hz
      · exact hB z (List.mem_cons_of_mem _ ((List.dropWhile_sublist _).subset hz))
      · rename_i hq
        rcases List.mem_append.1 hz with h1 | h1
        · refine hs.phis c hc z ?_
          unfold codeOf
          rw [e1, dropWhile_split, if_neg hq]
          exact List.mem_append_left _ h1
        · exact hB z (List.mem_cons_of_mem _ h1)
  · intro c hc l z r hl hz
    rw [hall] at hc
    rw [hi] at hz
    rcases hcut c hc with ⟨_, e1⟩ | ⟨A, B, e1, e2⟩
    · rw [e1] at hl; exact hs.last c hc l z r hl hz
    · rw [e2] at hl
      rcases List.append_eq_append_iff.1 hl with ⟨C, h1, h2⟩ | ⟨C, h1, h2⟩
      · exact hs.last c hc (A ++ e :: C) z r (by rw [e1, h2]; simp) hz
      · cases C with
        | nil =>
          simp at h1 h2
          exact hs.last c hc (A ++ [e]) z r (by rw [e1, ← h2]; simp) hz
        | cons y C =>
          simp at h2
          have := hs.last c hc l y (C ++ e :: B) (by rw [e1, h1]; simp) (by rw [← h2.1]; exact hz)
          simp at this
  · intro c hc z hz hph o ho
    rw [hall] at hc ⊢
    rw [hi] at hph ho
    exact hs.labels c hc z (hsub c hc z hz) hph o ho

/-! ## The whole pass -/

theorem mem_collect {f : Fn} {o : Op} {rs : List Nat} {x : Nat} : x ∈ collect o rs f ↔ ∃ b ∈ rs, x ∈ f.body b ∧ (f.insn x).op = o := by
  unfold collect
  simp [List.mem_flatMap]

theorem collect_nodup {f : Fn} (ht : Tidy f) {o : Op} : ∀ {rs : List Nat}, rs.Nodup → (∀ b ∈ rs, b ∈ f.allBbs) → (collect o rs f).Nodup
  | [], _, _ => List.nodup_nil
  | b :: rs, hn, hb => by
    rw [List.nodup_cons] at hn
    have ih := collect_nodup ht (o := o) hn.2 (fun c hc => hb c (List.mem_cons_of_mem _ hc))
    have : collect o (b :: rs) f = (f.body b).filter (fun x => (f.insn x).op = o) ++ collect o rs f := rfl
    rw [this, List.nodup_append]
    refine ⟨(ht.nodup b (hb b List.mem_cons_self)).sublist List.filter_sublist, ih, fun x hx y hy e => ?_⟩
    subst e
    obtain ⟨c, hc, h1, -⟩ := mem_collect.1 hy
    have h2 := (List.mem_filter.1 hx).1
    have e1 := ht.parent b (hb b List.mem_cons_self) x h2
    have e2 := ht.parent c (hb c (List.mem_cons_of_mem _ hc)) x h1
    rw [e1] at e2
    exact hn.1 (e2 ▸ hc)

theorem Heap.congr {f g : Fn} (h : g.insn = f.insn) (x : Nat) : Heap g x ↔ Heap f x := by
  unfold Heap
  rw [h]
  exact and_congr Iff.rfl (exists_congr fun y => and_congr Iff.rfl ⟨Scalar.congr h.symm, Scalar.congr h⟩)

theorem erase_unused {f : Fn} {e : Nat} (hu : UsersListed f) (he : InBody f e) (hn : ∀ x, Live f x → refs (f.insn x) e = 0) :
    ∃ g, erase f e = .ok g := by
  unfold erase
  rw [if_neg]
  · exact ⟨_, rfl⟩
  · intro h
    obtain ⟨z, hz, _⟩ := List.any_eq_true.1 h
    have hzl := (hu e (.inr (.inr he))).2 z hz
    have := ((hu e (.inr (.inr he))).1 z hzl).1 hz
    rw [hn z hzl] at this
    omega

theorem redirected {f : Fn} (hs : Shape f) (hu : UsersListed f) {e m : Nat} {a : BitVec 64} {w : Norm.AluTy} {bt : Norm.Builtin} (he : InBody f e)
    (hop : (f.insn e).op = .ecall) (hv : (f.insn e).vals = [.insn m, .const .plain a w bt]) (hn : ∀ x, Live f x → refs (f.insn x) e = 0)
    {R : List Nat} (hR : R.Nodup) (hRb : ∀ b ∈ R, b ∈ f.allBbs) {k : Nat} (hk : Seen f k) :
    ∃ g pre, translateHeap k R f e = .ok g ∧ Redirected f R e m g pre ∧ ∀ x, InBody g x → InBody f x ∧ x ≠ e ∨ (g.insn x).op ≠ .ecall := by
  obtain ⟨f1, h1⟩ := erase_unused hu he hn
  obtain ⟨_, hsm, _⟩ := erase_spec h1
  have hi : f1.insn = f.insn := hsm.insn
  have hall : f1.allBbs = f.allBbs := hsm.allBbs
  have hnx : f1.next = f.next := hsm.next
  have hsh := shape_erase hs hu he (by rw [hop]; simp) h1
  have hlv := @erase_live f f1 e hs.tidy he h1
  have hfil : ∀ c ∈ f.allBbs, f1.body c = (f.body c).filter (· != e) := fun c hc => erase_filter hs.tidy he h1 hc
  have hme : Live f m := hs.tidy.closed e m (.inr (.inr he)) (refs_pos.2 (by unfold operands; rw [hv]; simp))
  have hm : Live f1 m := by
    rw [hlv]
    refine ⟨hme, fun e1 => ?_⟩
    have h2 := hn e (.inr (.inr he))
    have h3 : 0 < refs (f.insn e) e := refs_pos.2 (by unfold operands; rw [hv, e1]; simp)
    omega
  have hk1 : Seen f1 k := fun y hy => by
    rw [isNonptr_congr hs.tidy (fun x _ => by rw [hi]; exact ⟨rfl, rfl⟩) k (.insn y) ((hlv.1 hy).1)]
    exact hk y (hlv.1 hy).1
  have hRb1 : ∀ b ∈ R, b ∈ f1.allBbs := fun b hb => by rw [hall]; exact hRb b hb
  have hcol : ∀ o, ∀ x ∈ collect o R f1, InBody f1 x ∧ (f1.insn x).op = o := fun o x hx => by
    obtain ⟨b, hb, hxb, ho⟩ := mem_collect.1 hx
    exact ⟨⟨b, hRb1 b hb, hxb⟩, ho⟩
  obtain ⟨g1, pre1, a1, a2, a3, a4, a5, a6⟩ := loop (D := fun g x ns => ∃ c, LoadDone f1 m g x ns c) hk1 (.inl rfl)
    (fun g g' x ns ⟨c, h⟩ h1 h2 => ⟨c, h.congr h1 h2⟩) (fun g pre x h hx ho hgx => by
      obtain ⟨g', ns, c, b1, b2, b3, b4, b5, b6⟩ := load_step h hx ho hm hgx
      exact ⟨g', ns, b1, b2, b3, b4, b5, c, b6⟩)
    (collect .loadraw R f1) f1 (fun _ => []) (Inv.init hsh) (collect_nodup hsh.tidy hR hRb1) (hcol _) (fun _ _ => ⟨rfl, rfl⟩)
  have hdis : ∀ x ∈ collect .storeraw R f1, x ∉ collect .loadraw R f1 := fun x h2 h3 => by
    have e1 := (hcol _ x h2).2
    rw [(hcol _ x h3).2] at e1
    cases e1
  have hlt : ∀ o, ∀ x ∈ collect o R f1, x < f1.next := fun o x hx => hsh.tidy.lt x (.inr (.inr (hcol o x hx).1))
  obtain ⟨g, pre, b1, b2, b3, b4, b5, b6⟩ := loop (D := fun g x ns => StoreDone f1 m g x ns) hk1 (.inr rfl)
    (fun g g' x ns h h1 h2 => h.congr h1 h2) (fun g pre x h hx ho hgx => store_step h hx ho hm hgx)
    (collect .storeraw R f1) g1 pre1 a2 (collect_nodup hsh.tidy hR hRb1) (hcol _)
    (fun x hx => ⟨a4 x (hlt _ x hx) (hdis x hx), a5 x (hdis x hx)⟩)
  have hne : ∀ x, (f.insn x).op ≠ .ecall → x ≠ e := fun x hx e1 => hx (e1 ▸ hop)
  have hin : ∀ b ∈ R, ∀ x ∈ f.body b, ∀ o, o ≠ .ecall → (f.insn x).op = o → x ∈ collect o R f1 := fun b hb x hx o hoe ho => by
    refine mem_collect.2 ⟨b, hb, ?_, by rw [hi]; exact ho⟩
    rw [hfil b (hRb b hb), List.mem_filter]
    exact ⟨hx, by simpa using hne x (by rw [ho]; exact hoe)⟩
  have hout : ∀ o, ∀ x ∈ collect o R f1, ∃ b ∈ R, x ∈ f.body b := fun o x hx => by
    obtain ⟨b, hb, hxb, _⟩ := mem_collect.1 hx
    rw [hfil b (hRb b hb), List.mem_filter] at hxb
    exact ⟨b, hb, hxb.1⟩
  have hld : ∀ g x ns c, LoadDone f1 m g x ns c → LoadDone f m g x ns c := fun g x ns c h => by unfold LoadDone at h ⊢; rw [hi] at h; exact h
  have hst : ∀ g x ns, StoreDone f1 m g x ns → StoreDone f m g x ns := fun g x ns h => by unfold StoreDone at h ⊢; rw [hi] at h; exact h
  have hfresh : ∀ x ∈ collect .loadraw R f1, ∀ n ∈ pre1 x, g.insn n = g1.insn n := fun x hx n hn => by
    refine b4 n ((a6 x hx).1 n hn) (fun h2 => ?_)
    have := hlt _ n h2
    have := a2.range x n hn
    omega
  have hkeep : ∀ x ∈ collect .loadraw R f1, x ∉ collect .storeraw R f1 := fun x h1 h2 => hdis x h2 h1
  refine ⟨g, pre, ?_, ⟨b2.shape, b2.entry.trans hsm.entry, b2.sp.trans hsm.sp, b2.args.trans hsm.args, ?_, ?_, ?_, ?_, ?_⟩, ?_⟩
  · unfold translateHeap
    rw [hv]
    dsimp only
    rw [h1, Out.ok_bind, a1, Out.ok_bind]
    exact b1
  · intro x n hn
    rw [← hnx]; exact b2.range x n hn
  · intro b hb
    have := b2.chain b (by rw [hall]; exact hb)
    rw [hfil b hb, hsm.succs] at this
    exact this
  · intro b hb x hx hh ho
    have hc := hin b hb x hx _ (by simp) ho
    obtain ⟨c, hc1⟩ := (a6 x hc).2.1 ((Heap.congr hi x).2 hh)
    refine ⟨c, hld _ _ _ _ ?_⟩
    rw [b5 x (hkeep x hc)]
    exact hc1.congr (hfresh x hc) (b4 x (by have := hlt _ x hc; omega) (hkeep x hc))
  · intro b hb x hx hh ho
    have hc := hin b hb x hx _ (by simp) ho
    exact hst _ _ _ ((b6 x hc).2.1 ((Heap.congr hi x).2 hh))
  · intro x hx hnh
    have hxn : x < f1.next := by rw [hnx]; exact hs.tidy.lt x hx
    have hnh' : ∀ o, x ∈ collect o R f1 → ¬ Heap f1 x := fun o hc hh => hnh ⟨(Heap.congr hi x).1 hh, hout o x hc⟩
    by_cases hcs : x ∈ collect .storeraw R f1
    · have := (b6 x hcs).2.2 (hnh' _ hcs)
      rw [hi] at this
      exact this
    · rw [b5 x hcs, b4 x (by omega) hcs]
      by_cases hcl : x ∈ collect .loadraw R f1
      · have := (a6 x hcl).2.2 (hnh' _ hcl)
        rw [hi] at this
        exact this
      · rw [a5 x hcl, a4 x hxn hcl, hi]
        exact ⟨rfl, rfl⟩
  · intro x hx
    refine (b2.clean x hx).imp (fun ⟨b, hb, hxb⟩ => ?_) (fun h => h)
    rw [hall] at hb
    rw [hfil b hb, List.mem_filter] at hxb
    exact ⟨⟨b, hb, hxb.1⟩, by simpa using hxb.2⟩

end Verif.Ecall
