import Verif.Guard.Shape
import Verif.IR.Sim
/-!
# Inserting a check: simulation
-/
namespace Verif.Guard
open Verif Verif.IR Verif.Edit
set_option linter.unusedSimpArgs false

variable {W : World} {f g : Fn} {b n e : Nat} {hd tl : List Nat} {i : Insn}

theorem Guard.hbn (G : Guard f b n e hd tl i g) : b ≠ n := fun h => G.freshN (by rw [← h]; exact G.inF)
theorem Guard.hbe (G : Guard f b n e hd tl i g) : b ≠ e := fun h => G.freshE (by rw [← h]; exact G.inF)

theorem Guard.insn_old (G : Guard f b n e hd tl i g) {x : Nat} (hx : x < f.next) : g.insn x = f.insn x := by
  rw [G.insn, upd_ne _ _ (by omega), upd_ne _ _ (by omega)]
theorem Guard.insn_t (G : Guard f b n e hd tl i g) : g.insn f.next = mkThrow := by
  rw [G.insn, upd_ne _ _ (by omega), upd_same]
theorem Guard.insn_j (G : Guard f b n e hd tl i g) : g.insn (f.next + 1) = i := by rw [G.insn, upd_same]

theorem lt_of_body (ht : Tidy f) {c x : Nat} (hc : c ∈ f.allBbs) (hx : x ∈ f.body c) : x < f.next := ht.lt x (.inr (.inr ⟨c, hc, hx⟩))

theorem Guard.mem_all (G : Guard f b n e hd tl i g) {c : Nat} : c ∈ g.allBbs ↔ c ∈ f.allBbs ∨ c = n ∨ c = e := by
  rw [G.allBbs]; simp

theorem Guard.mem (G : Guard f b n e hd tl i g) {c x : Nat} (hc : c ∈ g.allBbs) :
    x ∈ g.body c ↔ (c ∈ f.allBbs ∧ c ≠ b ∧ x ∈ f.body c) ∨ (c = b ∧ (x ∈ hd ∨ x = f.next + 1)) ∨ (c = n ∧ x ∈ tl) ∨ (c = e ∧ x = f.next) := by
  rcases G.mem_all.1 hc with h | h | h
  · have h1 : c ≠ n := fun e => G.freshN (by rw [← e]; exact h)
    have h2 : c ≠ e := fun e => G.freshE (by rw [← e]; exact h)
    rw [G.body c h]
    by_cases eb : c = b
    · simp [eb, G.hbn, G.hbe]
    · simp [eb, h1, h2, h]
  · subst h
    rw [G.bodyN]
    simp [G.freshN, G.hbn.symm, G.ne]
  · subst h
    rw [G.bodyE]
    simp [G.freshE, G.hbe.symm, G.ne.symm]

theorem Guard.live (G : Guard f b n e hd tl i g) {x : Nat} : Live g x ↔ Live f x ∨ x = f.next ∨ x = f.next + 1 := by
  have hb : b ∈ g.allBbs := G.mem_all.2 (.inl G.inF)
  have hn : n ∈ g.allBbs := G.mem_all.2 (.inr (.inl rfl))
  have he : e ∈ g.allBbs := G.mem_all.2 (.inr (.inr rfl))
  unfold Live InBody
  rw [G.sp, G.args]
  constructor
  · rintro (h | h | ⟨c, hc, hx⟩)
    · exact .inl (.inl h)
    · exact .inl (.inr (.inl h))
    · rcases (G.mem hc).1 hx with ⟨h1, _, h3⟩ | ⟨_, h3 | h3⟩ | ⟨_, h3⟩ | ⟨_, h3⟩
      · exact .inl (.inr (.inr ⟨c, h1, h3⟩))
      · exact .inl (.inr (.inr ⟨b, G.inF, by rw [G.list]; exact List.mem_append_left _ h3⟩))
      · exact .inr (.inr h3)
      · exact .inl (.inr (.inr ⟨b, G.inF, by rw [G.list]; exact List.mem_append_right _ h3⟩))
      · exact .inr (.inl h3)
  · rintro ((h | h | ⟨c, hc, hx⟩) | h | h)
    · exact .inl h
    · exact .inr (.inl h)
    · by_cases eb : c = b
      · subst eb
        rw [G.list] at hx
        rcases List.mem_append.1 hx with h3 | h3
        · exact .inr (.inr ⟨c, hb, (G.mem hb).2 (.inr (.inl ⟨rfl, .inl h3⟩))⟩)
        · exact .inr (.inr ⟨n, hn, (G.mem hn).2 (.inr (.inr (.inl ⟨rfl, h3⟩)))⟩)
      · exact .inr (.inr ⟨c, G.mem_all.2 (.inl hc), (G.mem (G.mem_all.2 (.inl hc))).2 (.inl ⟨hc, eb, hx⟩)⟩)
    · exact .inr (.inr ⟨e, he, (G.mem he).2 (.inr (.inr (.inr ⟨rfl, h⟩)))⟩)
    · exact .inr (.inr ⟨b, hb, (G.mem hb).2 (.inr (.inl ⟨rfl, .inr h⟩))⟩)

theorem Guard.mem_old (G : Guard f b n e hd tl i g) {c x : Nat} (hc : c ∈ g.allBbs) (hx : x ∈ g.body c) :
    (∃ d ∈ f.allBbs, x ∈ f.body d ∧ (c = d ∨ (c = n ∧ d = b ∧ x ∈ tl))) ∨ (x = f.next + 1 ∧ c = b) ∨ (x = f.next ∧ c = e) := by
  rcases (G.mem hc).1 hx with ⟨h1, _, h3⟩ | ⟨h1, h3 | h3⟩ | ⟨h1, h3⟩ | ⟨h1, h3⟩
  · exact .inl ⟨c, h1, h3, .inl rfl⟩
  · exact .inl ⟨b, G.inF, by rw [G.list]; exact List.mem_append_left _ h3, .inl h1⟩
  · exact .inr (.inl ⟨h3, h1⟩)
  · exact .inl ⟨b, G.inF, by rw [G.list]; exact List.mem_append_right _ h3, .inr ⟨h1, rfl, h3⟩⟩
  · exact .inr (.inr ⟨h3, h1⟩)

theorem Guard.tidy (G : Guard f b n e hd tl i g) (ht : Tidy f) (hi : ∀ y, 0 < refs i y → Live f y) : Tidy g := by
  have hnd := ht.nodup b G.inF
  rw [G.list, List.nodup_append] at hnd
  have hlt : ∀ x ∈ hd ++ tl, x < f.next := fun x hx => lt_of_body ht G.inF (by rw [G.list]; exact hx)
  have hsp : f.sp < f.next := ht.lt _ (.inl rfl)
  have harg : ∀ a ∈ f.args, a < f.next := fun a ha => ht.lt _ (.inr (.inl ha))
  refine ⟨?_, ?_, ?_, ?_, ?_⟩
  · intro x hx
    rw [G.next]
    rcases G.live.1 hx with h | h | h
    · have := ht.lt x h; omega
    · omega
    · omega
  · intro x y hx hy
    rcases G.live.1 hx with h | h | h
    · rw [G.insn_old (ht.lt x h)] at hy
      exact G.live.2 (.inl (ht.closed x y h hy))
    · rw [h, G.insn_t] at hy; simp [refs, mkThrow] at hy
    · rw [h, G.insn_j] at hy
      exact G.live.2 (.inl (hi y hy))
  · intro c hc x hx
    rw [G.parent]
    rcases G.mem_old hc hx with ⟨d, hd', hx', h⟩ | ⟨h, h'⟩ | ⟨h, h'⟩
    · have hl := lt_of_body ht hd' hx'
      rw [if_neg (by omega), if_neg (by omega)]
      rcases h with h | ⟨h1, h2, h3⟩
      · subst h
        rw [if_neg, ht.parent c hd' x hx']
        intro hm
        have : f.parent x = b := ht.parent b G.inF x (by rw [G.list]; exact List.mem_append_right _ hm)
        have hcb : c = b := by rw [← ht.parent c hd' x hx', this]
        subst hcb
        rw [G.body c hd', if_pos rfl] at hx
        rcases List.mem_append.1 hx with h3 | h3
        · exact hnd.2.2 x h3 x hm rfl
        · rw [List.mem_singleton.1 h3] at hl; omega
      · rw [if_pos h3, h1]
    · rw [if_pos h, h']
    · rw [if_neg (by omega), if_pos h, h']
  · intro c hc
    rcases G.mem_all.1 hc with h | h | h
    · rw [G.body c h]
      split
      · rw [List.nodup_append]
        refine ⟨hnd.1, by simp, ?_⟩
        intro a ha x hx
        have := hlt a (List.mem_append_left _ ha)
        rw [List.mem_singleton.1 hx]; omega
      · exact ht.nodup c h
    · rw [h, G.bodyN]; exact hnd.2.1
    · rw [h, G.bodyE]; simp
  · intro c hc x hx
    rw [G.sp, G.args]
    rcases G.mem_old hc hx with ⟨d, hd', hx', h⟩ | ⟨h, h'⟩ | ⟨h, h'⟩
    · exact ht.fixed d hd' x hx'
    · exact ⟨by omega, fun hm => by have := harg x hm; omega⟩
    · exact ⟨by omega, fun hm => by have := harg x hm; omega⟩

theorem Guard.graph (G : Guard f b n e hd tl i g) (hg : Graph f) : Graph g := by
  have hs : ∀ c d, c ∈ g.allBbs → (d ∈ g.succs c ↔ (c = b ∧ (d = n ∨ d = e)) ∨ (c = n ∧ d ∈ f.succs b) ∨ (c ∈ f.allBbs ∧ c ≠ b ∧ d ∈ f.succs c)) := by
    intro c d hc
    rw [G.succs]
    by_cases h1 : c = b
    · subst h1; simp [G.hbn]
    · by_cases h2 : c = n
      · subst h2; simp [h1, G.freshN]
      · by_cases h3 : c = e
        · subst h3; simp [h1, h2, G.freshE]
        · have : c ∈ f.allBbs := by rcases G.mem_all.1 hc with h | h | h <;> simp_all
          simp [h1, h2, h3, this]
  have hnd : ∀ c, c ∈ f.allBbs → (f.preds c).Nodup := fun c hc => (hg.preds c hc).1
  have hp : ∀ c d, d ∈ g.allBbs → (c ∈ g.preds d ↔ (c = b ∧ (d = n ∨ d = e)) ∨ (c = n ∧ d ∈ f.succs b) ∨ (d ∈ f.allBbs ∧ c ≠ b ∧ c ∈ f.preds d)) := by
    intro c d hd
    rw [G.preds]
    rcases G.mem_all.1 hd with h | h | h
    · have h1 : d ≠ n := fun h' => G.freshN (by rw [← h']; exact h)
      have h2 : d ≠ e := fun h' => G.freshE (by rw [← h']; exact h)
      rw [if_neg (by simp [h1, h2])]
      by_cases h3 : d ∈ f.succs b
      · rw [if_pos h3, List.mem_append, (hnd d h).mem_erase_iff]
        simp only [List.mem_singleton, h1, h2, h, h3, or_self, and_false, false_or, true_and, and_true]
        constructor
        · rintro (h | h)
          · exact .inr h
          · exact .inl h
        · rintro (h | h)
          · exact .inr h
          · exact .inl h
      · rw [if_neg h3]
        simp only [h1, h2, h, h3, or_self, and_false, false_or, true_and, and_true]
        constructor
        · intro hc
          refine ⟨fun h' => ?_, hc⟩
          subst h'
          exact h3 ((hg.sym c G.inF d h).2 hc)
        · exact fun h => h.2
    · subst h
      have : d ∉ f.succs b := fun hm => G.freshN ((hg.succs b G.inF).2 _ hm)
      simp [this, G.freshN]
    · subst h
      have : d ∉ f.succs b := fun hm => G.freshE ((hg.succs b G.inF).2 _ hm)
      simp [this, G.freshE]
  have hsb := hg.succs b G.inF
  refine ⟨?_, ?_, ?_⟩
  · intro c hc d hd
    rw [hs c d hc, hp c d hd]
    constructor
    · rintro (h | h | ⟨h1, h2, h3⟩)
      · exact .inl h
      · exact .inr (.inl h)
      · have hd' := (hg.succs c h1).2 d h3
        exact .inr (.inr ⟨hd', h2, (hg.sym c h1 d hd').1 h3⟩)
    · rintro (h | h | ⟨h1, h2, h3⟩)
      · exact .inl h
      · exact .inr (.inl h)
      · have hc' := (hg.preds d h1).2 c h3
        exact .inr (.inr ⟨hc', h2, (hg.sym c hc' d h1).2 h3⟩)
  · intro c hc
    constructor
    · rw [G.succs]
      split
      · simp [G.ne]
      · split
        · exact hsb.1
        · split
          · simp
          · rename_i h1 h2 h3
            have : c ∈ f.allBbs := by rcases G.mem_all.1 hc with h | h | h <;> simp_all
            exact (hg.succs c this).1
    · intro d hd
      rcases (hs c d hc).1 hd with ⟨_, h | h⟩ | ⟨_, h⟩ | ⟨h1, _, h⟩
      · exact G.mem_all.2 (.inr (.inl h))
      · exact G.mem_all.2 (.inr (.inr h))
      · exact G.mem_all.2 (.inl (hsb.2 d h))
      · exact G.mem_all.2 (.inl ((hg.succs c h1).2 d h))
  · intro d hd
    constructor
    · rw [G.preds]
      split
      · simp
      · rename_i h1
        have hd' : d ∈ f.allBbs := by rcases G.mem_all.1 hd with h | h | h <;> simp_all
        split
        · rw [List.nodup_append]
          refine ⟨(hnd d hd').erase _, by simp, ?_⟩
          intro a ha x hx
          rw [List.mem_singleton.1 hx]
          intro h
          exact G.freshN ((hg.preds d hd').2 _ (List.mem_of_mem_erase (h ▸ ha)))
        · exact hnd d hd'
    · intro c hc
      rcases (hp c d hd).1 hc with ⟨h, _⟩ | ⟨h, _⟩ | ⟨h1, _, h⟩
      · exact G.mem_all.2 (.inl (by rw [h]; exact G.inF))
      · exact G.mem_all.2 (.inr (.inl h))
      · exact G.mem_all.2 (.inl ((hg.preds d h1).2 c h))

theorem dropWhile_append_sub {p : Nat → Bool} {x : Nat} {tl : List Nat} : ∀ {hd : List Nat}, x ∈ tl.dropWhile p → x ∈ (hd ++ tl).dropWhile p := by
  intro hd
  induction hd with
  | nil => exact fun h => h
  | cons a hd ih =>
    intro h
    rw [List.cons_append, List.dropWhile_cons]
    split
    · exact ih h
    · exact List.mem_cons_of_mem _ (List.mem_append_right _ ((List.dropWhile_sublist _).subset h))

theorem dropWhile_congr {p q : Nat → Bool} : ∀ {l : List Nat}, (∀ x ∈ l, p x = q x) → l.dropWhile p = l.dropWhile q := by
  intro l
  induction l with
  | nil => intros; rfl
  | cons a l ih =>
    intro h
    rw [List.dropWhile_cons, List.dropWhile_cons, h a (List.mem_cons_self ..), ih (fun x hx => h x (List.mem_cons_of_mem _ hx))]

/-- No jump in the first half. -/
theorem Guard.hd_plain (G : Guard f b n e hd tl i g) (hs : Shape f) {x : Nat} (hx : x ∈ hd) : ends (f.insn x).op = false := by
  cases h : ends (f.insn x).op with
  | false => rfl
  | true =>
    obtain ⟨A, B, rfl⟩ := List.append_of_mem hx
    have := hs.last b G.inF A x (B ++ tl) (by rw [G.list]; simp) h
    exact absurd (List.append_eq_nil_iff.1 this).2 G.nonempty

theorem ends_ja {o : Op} (h : o = .ja) : ends o = true := by rw [h]; rfl
theorem ends_cond {o : Op} (h : o.condJmp = true) : ends o = true := by cases o <;> simp_all [Norm.Op.condJmp, ends]
theorem cond_not_phi {o : Op} (h : o.condJmp = true) : o ≠ .phi := by cases o <;> simp_all [Norm.Op.condJmp]

theorem Guard.codeN (G : Guard f b n e hd tl i g) (hs : Shape f) : ∀ x ∈ codeOf g n, x ∈ codeOf f b := by
  intro x hx
  unfold codeOf at hx ⊢
  rw [G.bodyN] at hx
  rw [dropWhile_congr (q := fun x => (f.insn x).op == .phi) (by
    intro y hy
    rw [G.insn_old (lt_of_body hs.tidy G.inF (by rw [G.list]; exact List.mem_append_right _ hy))])] at hx
  rw [G.list]
  exact dropWhile_append_sub hx

theorem Guard.shape (G : Guard f b n e hd tl i g) (hs : Shape f) (hi : ∀ y, 0 < refs i y → Live f y) : Shape g := by
  have ht := hs.tidy
  have hlt : ∀ x ∈ hd ++ tl, x < f.next := fun x hx => lt_of_body ht G.inF (by rw [G.list]; exact hx)
  have hold : ∀ c ∈ f.allBbs, ∀ x ∈ f.body c, g.insn x = f.insn x := fun c hc x hx => G.insn_old (lt_of_body ht hc hx)
  refine ⟨G.tidy ht hi, G.graph hs.graph, ?_, by rw [G.entry]; exact G.mem_all.2 (.inl hs.entry), ?_, ?_, ?_⟩
  · intro c hc x hx
    rw [G.succs]
    rcases (G.mem hc).1 hx with ⟨h1, h2, h3⟩ | ⟨h1, h3 | h3⟩ | ⟨h1, h3⟩ | ⟨h1, h3⟩
    · have h4 : c ≠ n := fun h' => G.freshN (by rw [← h']; exact h1)
      have h5 : c ≠ e := fun h' => G.freshE (by rw [← h']; exact h1)
      rw [if_neg h2, if_neg h4, if_neg h5, hold c h1 x h3]
      exact hs.wired c h1 x h3
    · rw [G.insn_old (hlt x (List.mem_append_left _ h3))]
      have := G.hd_plain hs h3
      exact ⟨fun h => (by rw [ends_ja h] at this; cases this), fun h => (by rw [ends_cond h] at this; cases this)⟩
    · rw [if_pos h1, h3, G.insn_j]
      refine ⟨fun h => ?_, fun _ => by simp [G.bb1, G.bb2]⟩
      have := G.cond
      rw [h] at this
      cases this
    · rw [if_neg (by rw [h1]; exact G.hbn.symm), if_pos h1, G.insn_old (hlt x (List.mem_append_right _ h3))]
      exact hs.wired b G.inF x (by rw [G.list]; exact List.mem_append_right _ h3)
    · rw [h3, G.insn_t]
      simp [mkThrow, Norm.Op.condJmp]
  · intro c hc x hx
    rcases G.mem_all.1 hc with h | h | h
    · by_cases h1 : c = b
      · subst h1
        unfold codeOf at hx
        have hx' := (List.dropWhile_sublist _).subset hx
        rw [G.body c h, if_pos rfl] at hx hx'
        rcases List.mem_append.1 hx' with h3 | h3
        · rw [G.insn_old (hlt x (List.mem_append_left _ h3))]
          apply hs.phis c h x
          unfold codeOf
          have hsplit : ∀ (l : List Nat) (k : Nat) (p q : Nat → Bool) (tl : List Nat), (∀ y ∈ l, p y = q y) → x ≠ k → x ∈ (l ++ [k]).dropWhile p → x ∈ (l ++ tl).dropWhile q := by
            intro l k p q tl hpq hk
            induction l with
            | nil =>
              intro h
              exact absurd (List.mem_singleton.1 ((List.dropWhile_sublist _).subset h)) hk
            | cons a l ih =>
              intro h
              rw [List.cons_append, List.dropWhile_cons] at h ⊢
              rw [hpq a (List.mem_cons_self ..)] at h
              split
              · rename_i hq
                rw [if_pos hq] at h
                exact ih (fun y hy => hpq y (List.mem_cons_of_mem _ hy)) h
              · rename_i hq
                rw [if_neg hq] at h
                rcases List.mem_cons.1 h with h | h
                · exact h ▸ List.mem_cons_self ..
                · rcases List.mem_append.1 h with h | h
                  · exact List.mem_cons_of_mem _ (List.mem_append_left _ h)
                  · exact absurd (List.mem_singleton.1 h) hk
          rw [G.list]
          refine hsplit hd (f.next + 1) _ _ tl (fun y hy => ?_) (by have := hlt x (List.mem_append_left _ h3); omega) hx
          rw [G.insn_old (hlt y (List.mem_append_left _ hy))]
        · rw [List.mem_singleton.1 h3, G.insn_j]; exact cond_not_phi G.cond
      · have hb : g.body c = f.body c := by rw [G.body c h, if_neg h1]
        have hx2 : x ∈ codeOf f c := by
          unfold codeOf at hx ⊢
          rw [hb, dropWhile_congr (q := fun x => (f.insn x).op == .phi) (fun y hy => by rw [hold c h y hy])] at hx
          exact hx
        rw [hold c h x ((List.dropWhile_sublist _).subset hx2)]
        exact hs.phis c h x hx2
    · subst h
      have := G.codeN hs x hx
      rw [hold b G.inF x ((List.dropWhile_sublist _).subset this)]
      exact hs.phis b G.inF x this
    · subst h
      unfold codeOf at hx
      have hx' := (List.dropWhile_sublist _).subset hx
      rw [G.bodyE] at hx'
      rw [List.mem_singleton.1 hx', G.insn_t]
      simp [mkThrow]
  · intro c hc l z r hl hz
    rcases G.mem_all.1 hc with h | h | h
    · rw [G.body c h] at hl
      split at hl
      · rcases List.eq_nil_or_concat r with h' | ⟨r', y, h'⟩
        · exact h'
        · rw [List.concat_eq_append] at h'
          subst h'
          have : hd = l ++ z :: r' := by
            have : hd ++ [f.next + 1] = (l ++ z :: r') ++ [y] := by simpa using hl
            exact List.append_inj_left' this rfl
          have hz' : z ∈ hd := by rw [this]; simp
          rw [G.insn_old (hlt z (List.mem_append_left _ hz')), G.hd_plain hs hz'] at hz
          cases hz
      · refine hs.last c h l z r hl ?_
        rw [← hold c h z (by rw [hl]; simp)]; exact hz
    · subst h
      rw [G.bodyN] at hl
      refine hs.last b G.inF (hd ++ l) z r (by rw [G.list, hl]; simp) ?_
      rw [← hold b G.inF z (by rw [G.list, hl]; simp)]; exact hz
    · subst h
      rw [G.bodyE] at hl
      cases l with
      | nil => simp at hl; exact hl.2
      | cons a l => simp at hl
  · intro c hc x hx hp o ho
    rcases G.mem_old hc hx with ⟨d, hd', hx', h⟩ | ⟨h, h'⟩ | ⟨h, h'⟩
    · rw [hold d hd' x hx'] at hp ho
      exact G.mem_all.2 (.inl (hs.labels d hd' x hx' hp o ho))
    · rw [h, G.insn_j] at hp; exact absurd hp (cond_not_phi G.cond)
    · rw [h, G.insn_t] at hp; cases hp

end Verif.Guard
