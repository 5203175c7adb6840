import Verif.Show.Sim
/-!
# Functions with the same listing do the same: runs
-/
namespace Verif.Show
open Verif Verif.IR Verif.Edit
open Verif.Opts (Str)
open Verif.Tool (str dec dec_inj Stops stops_lit)

variable {f g : Fn} {t t' : Tags} {e e' : Extra} {R S : List Nat}

theorem all2_get {α β : Type} {P : α → β → Prop} : ∀ {l : List α} {m : List β} {n : Nat} {a : α}, All2 P l m → l[n]? = some a → ∃ b, m[n]? = some b ∧ P a b
  | [], [], _, _, _, h => by simp at h
  | a :: l, b :: m, 0, c, h, hc => by
    simp only [List.getElem?_cons_zero] at hc
    injection hc with hc
    subst hc
    exact ⟨b, rfl, h.1⟩
  | a :: l, b :: m, n + 1, c, h, hc => by
    simp only [List.getElem?_cons_succ] at hc
    exact all2_get (n := n) h.2 hc

/-- The same line. -/
def Same (f : Fn) (t : Tags) (e : Extra) (g : Fn) (t' : Tags) (e' : Extra) (x y : Nat) : Prop :=
  IAlike (nameOf f t e) (bbName t e) (nameOf g t' e') (bbName t' e') (f.insn x) (g.insn y) ∧ (isVoid (f.insn x).op = false → ∃ k, t.id x = some k ∧ t'.id y = some k)

theorem phis_same : ∀ {xs ys : List Nat}, All2 (Same f t e g t' e') xs ys →
    All2 (Same f t e g t' e') (xs.takeWhile fun x => (f.insn x).op == .phi) (ys.takeWhile fun x => (g.insn x).op == .phi) ∧
    All2 (Same f t e g t' e') (xs.dropWhile fun x => (f.insn x).op == .phi) (ys.dropWhile fun x => (g.insn x).op == .phi)
  | [], [], _ => ⟨trivial, trivial⟩
  | x :: xs, y :: ys, h => by
    rw [List.takeWhile_cons, List.takeWhile_cons, List.dropWhile_cons, List.dropWhile_cons, ← h.1.1.op]
    obtain ⟨a, b⟩ := phis_same h.2
    cases (f.insn x).op == Norm.Op.phi
    · exact ⟨trivial, h⟩
    · exact ⟨⟨h.1, a⟩, b⟩

section
variable (h : Open f t e R) (h' : Open g t' e' S) (T : All2 (Twin f t e g t' e') R S)
include h h'

/-- Blocks with the same name, the one of a pair. -/
theorem name_iff {a c p q k : Nat} (ha : (t.bid a).isSome = true) (hc : (t'.bid c).isSome = true) (hn : bbName t e a = bbName t' e' c) (hp : t.bid p = some k) (hq : t'.bid q = some k) : (a == p) = (c == q) := by
  obtain ⟨i, hi⟩ := Option.isSome_iff_exists.1 ha
  obtain ⟨j, hj⟩ := Option.isSome_iff_exists.1 hc
  have h1 : i < 10 ^ 20 := by have := h.once.bsmall a i hi; have := h.fits.2; omega
  have h2 : j < 10 ^ 20 := by have := h'.once.bsmall c j hj; have := h'.fits.2; omega
  unfold bbName at hn
  rw [hi, hj] at hn
  have nil : Stops ([] : Str) := fun c e => by cases e
  have ij := (dec_inj (r := []) (r' := []) h1 h2 nil nil (by simpa using hn)).1
  subst ij
  by_cases e1 : a = p
  · subst e1
    rw [hp] at hi
    injection hi with hi
    subst hi
    have := h'.once.bid _ _ _ hj hq
    subst this
    simp
  · by_cases e2 : c = q
    · subst e2
      rw [hq] at hj
      injection hj with hj
      subst hj
      exact absurd (h.once.bid _ _ _ hi hp) e1
    · rw [beq_eq_false_iff_ne.2 e1, beq_eq_false_iff_ne.2 e2]

include T

/-- A jump goes to the same block. -/
theorem goes {b c : Nat} (hb : b ∈ R) (hc : c ∈ S) (hn : bbName t e b = bbName t' e' c) : ∃ n : Nat, R[n]? = some b ∧ S[n]? = some c := by
  obtain ⟨n, hn'⟩ := List.mem_iff_getElem?.1 hb
  obtain ⟨d, hd, tw⟩ := all2_get T hn'
  obtain ⟨k, k1, k2⟩ := tw.name
  refine ⟨n, hn', ?_⟩
  have := name_iff h h' (h.blocks b hb) (h'.blocks c hc) hn k1 k2
  rw [beq_self_eq_true] at this
  rw [hd, ← beq_iff_eq.1 this.symm]

variable {W W' : World} (hW : MatchWorld (SameName f t e g t' e') W W') {σ τ : St} (hs : MatchSt (SameName f t e g t' e') σ τ)
include hs

theorem phiVal_alike {p q k : Nat} (hp : t.bid p = some k) (hq : t'.bid q = some k) {i j : Insn} (ho : i.op = .phi) (ho' : j.op = .phi)
    (n : Ins f t i) (n' : Ins g t' j) (l : ∀ o ∈ i.phi, (t.bid o.1).isSome = true) (l' : ∀ o ∈ j.phi, (t'.bid o.1).isSome = true)
    (I : All2 (fun a b => bbName t e a.1 = bbName t' e' b.1 ∧ VAlike (nameOf f t e) (nameOf g t' e') a.2 b.2) i.phi j.phi) : phiVal i p σ = phiVal j q τ := by
  have sh : ∀ o ∈ i.phi, o.2 ∈ shown i := fun o hm => by simp only [shown, ho]; exact List.mem_map_of_mem hm
  have sh' : ∀ o ∈ j.phi, o.2 ∈ shown j := fun o hm => by simp only [shown, ho']; exact List.mem_map_of_mem hm
  unfold phiVal
  have key : ∀ {os us : List (Nat × Val)}, All2 (fun a b => bbName t e a.1 = bbName t' e' b.1 ∧ VAlike (nameOf f t e) (nameOf g t' e') a.2 b.2) os us → (∀ o ∈ os, o ∈ i.phi) → (∀ o ∈ us, o ∈ j.phi) →
      ((os.find? (fun o => o.1 == p)).bind fun o => eval σ o.2) = ((us.find? (fun o => o.1 == q)).bind fun o => eval τ o.2) := by
    intro os
    induction os with
    | nil =>
      intro us A _ _
      cases us with
      | nil => rfl
      | cons => cases A
    | cons o os ih =>
      intro us A m m'
      cases us with
      | nil => cases A
      | cons u us =>
        have e1 := name_iff h h' (l o (m o (by simp))) (l' u (m' u (by simp))) A.1.1 hp hq
        rw [List.find?_cons, List.find?_cons, e1]
        cases u.1 == q
        · exact ih A.2 (fun x hx => m x (by simp [hx])) (fun x hx => m' x (by simp [hx]))
        · exact eval_alike hs A.1.2 (fun y k => n.named y (k ▸ sh o (m o (by simp)))) (fun y k => n'.named y (k ▸ sh' u (m' u (by simp))))
  exact key I (fun _ h => h) (fun _ h => h)

theorem phiAssign_alike {b c p q k : Nat} (hb : b ∈ R) (hc : c ∈ S) (hp : t.bid p = some k) (hq : t'.bid q = some k) : ∀ {xs ys : List Nat}, All2 (Same f t e g t' e') xs ys → (∀ x ∈ xs, x ∈ f.body b ∧ (f.insn x).op = .phi) →
    (∀ y ∈ ys, y ∈ g.body c ∧ (g.insn y).op = .phi) →
    match phiAssign f p σ xs, phiAssign g q τ ys with
    | some u, some v => Match (SameName f t e g t' e') u v
    | none, none => True
    | _, _ => False
  | [], [], _, _, _ => hs.env
  | x :: xs, y :: ys, A, m, m' => by
    obtain ⟨mx, ox⟩ := m x (by simp)
    obtain ⟨my, oy⟩ := m' y (by simp)
    have ih := phiAssign_alike hb hc hp hq A.2 (fun x hx => m x (by simp [hx])) (fun x hx => m' x (by simp [hx]))
    simp only [phiAssign]
    rw [phiVal_alike h h' T hs hp hq ox oy (h.ins hb mx) (h'.ins hc my) (h.labels b hb x mx ox) (h'.labels c hc y my oy) (A.1.1.phi ox)]
    cases phiVal (g.insn y) q τ with
    | none => trivial
    | some a =>
      cases hu : phiAssign f p σ xs <;> cases hv : phiAssign g q τ ys <;> simp only [hu, hv] at ih
      · trivial
      · obtain ⟨k, k1, k2⟩ := A.1.2 (by rw [ox]; rfl)
        exact agree_upd h.toClear h'.toClear a k1 k2 (solid (h.says b hb x mx)) (solid (h'.says c hc y my)) ih

/-- Two steps that go to the same place, or end in the same way. -/
inductive SameStep (f : Fn) (t : Tags) (e : Extra) (g : Fn) (t' : Tags) (e' : Extra) (R S : List Nat) : Step → Step → Prop
  | goto (n b c : Nat) (r r' : List Nat) (σ τ : St) : R[n]? = some b → S[n]? = some c → All2 (Same f t e g t' e') r r' → (∃ pre, f.body b = pre ++ r ∧ ∀ x ∈ pre, ends (f.insn x).op = false) →
      (∃ pre, g.body c = pre ++ r' ∧ ∀ x ∈ pre, ends (g.insn x).op = false) → MatchSt (SameName f t e g t' e') σ τ → SameStep f t e g t' e' R S (.goto b r σ) (.goto c r' τ)
  | done (x : BitVec 64) : SameStep f t e g t' e' R S (.done x) (.done x)
  | thrown : SameStep f t e g t' e' R S .thrown .thrown
  | stuck : SameStep f t e g t' e' R S .stuck .stuck

theorem enter_alike {m p q n b c : Nat} (hp : R[m]? = some p) (hq : S[m]? = some q) (hb : R[n]? = some b) (hc : S[n]? = some c) : SameStep f t e g t' e' R S (enter f p b σ) (enter g q c τ) := by
  obtain ⟨q', hq', tw⟩ := all2_get T hp
  rw [hq] at hq'
  injection hq' with hq'
  subst hq'
  obtain ⟨c', hc', tw'⟩ := all2_get T hb
  rw [hc] at hc'
  injection hc' with hc'
  subst hc'
  obtain ⟨k, k1, k2⟩ := tw.name
  obtain ⟨A, B⟩ := phis_same tw'.body
  have mt : ∀ (f : Fn) (b x : Nat), x ∈ (f.body b).takeWhile (fun x => (f.insn x).op == .phi) → x ∈ f.body b ∧ (f.insn x).op = .phi := fun f b x hx =>
    ⟨(List.takeWhile_sublist _).subset hx, by
      have := List.all_eq_true.1 (List.all_takeWhile (p := fun x => (f.insn x).op == .phi) (l := f.body b)) x hx
      simpa using this⟩
  have := phiAssign_alike h h' T hs (List.mem_of_getElem? hb) (List.mem_of_getElem? hc) k1 k2 A (mt f b) (mt g c)
  unfold enter phisOf codeOf
  cases hu : phiAssign f p σ ((f.body b).takeWhile fun x => (f.insn x).op == .phi) <;> cases hv : phiAssign g q τ ((g.body c).takeWhile fun x => (g.insn x).op == .phi) <;> simp only [hu, hv] at this
  · exact .stuck
  · refine .goto n b c _ _ _ _ hb hc B ⟨_, (List.takeWhile_append_dropWhile).symm, fun x hx => by rw [(mt f b x hx).2]; rfl⟩ ⟨_, (List.takeWhile_append_dropWhile).symm, fun x hx => by rw [(mt g c x hx).2]; rfl⟩ ⟨this, hs.var, hs.mem, hs.trace⟩

omit hs T in
theorem next_get {n b c : Nat} {R : List Nat} (hR : R.Nodup) (hb : R[n]? = some b) (hn : Layout.Next R b c) : R[n + 1]? = some c := by
  obtain ⟨A, B, rfl⟩ := hn
  have h1 : (A ++ b :: c :: B)[A.length]? = some b := by simp
  have : n = A.length := by
    have l1 : n < (A ++ b :: c :: B).length := (List.getElem?_eq_some_iff.1 hb).1
    exact (List.getElem?_inj l1 hR).1 (hb.trans h1.symm)
  subst this
  simp

include hW

theorem step_alike {n b c : Nat} {r r' : List Nat} (hb : R[n]? = some b) (hc : S[n]? = some c) (A : All2 (Same f t e g t' e') r r') (P : ∃ pre, f.body b = pre ++ r ∧ ∀ x ∈ pre, ends (f.insn x).op = false)
    (P' : ∃ pre, g.body c = pre ++ r' ∧ ∀ x ∈ pre, ends (g.insn x).op = false) : SameStep f t e g t' e' R S (step W f b r σ) (step W' g c r' τ) := by
  have hbR := List.mem_of_getElem? hb
  have hcS := List.mem_of_getElem? hc
  obtain ⟨pre, e1, e2⟩ := P
  obtain ⟨pre', e1', e2'⟩ := P'
  match r, r', A with
  | [], [], _ =>
    rw [List.append_nil] at e1 e1'
    obtain ⟨d, d1, d2⟩ := h.falls b hbR (e1 ▸ e2)
    obtain ⟨d', d1', d2'⟩ := h'.falls c hcS (e1' ▸ e2')
    simp only [step, d1, d1']
    exact enter_alike h h' T hs hb hc (next_get h h' h.nodup hb d2) (next_get h h' h'.nodup hc d2')
  | x :: r, y :: r', A =>
    obtain ⟨⟨I, num⟩, A⟩ := A
    have hx : x ∈ f.body b := by rw [e1]; simp
    have hy : y ∈ g.body c := by rw [e1']; simp
    have sx := h.says b hbR x hx
    have sy := h'.says c hcS y hy
    have nx := h.ins hbR hx
    have ny := h'.ins hcS hy
    simp only [step]
    rw [← I.op]
    by_cases o1 : (f.insn x).op = .ja
    · rw [if_pos o1, if_pos o1]
      have o1' := I.op.symm.trans o1
      obtain ⟨m, m1, m2⟩ := goes h h' T (h.targets b hbR x hx (.inl o1)) (h'.targets c hcS y hy (.inl o1')) (I.ja (.inl o1))
      exact enter_alike h h' T hs hb hc m1 m2
    · rw [if_neg o1, if_neg o1]
      by_cases o2 : (f.insn x).op.condJmp = true
      · rw [if_pos o2, if_pos o2]
        have o2' : (g.insn y).op.condJmp = true := I.op ▸ o2
        obtain ⟨m, m1, m2⟩ := goes h h' T (h.targets b hbR x hx (.inr o2)) (h'.targets c hcS y hy (.inr o2')) (I.ja (.inr o2))
        obtain ⟨l, l1, l2⟩ := goes h h' T (h.others b hbR x hx o2) (h'.others c hcS y hy o2') (I.cond o2)
        have tk : taken (f.insn x) σ = taken (g.insn y) τ := by
          have hv := sx.vals
          have ar : arity (f.insn x) = some 2 ∧ shown (f.insn x) = (f.insn x).vals.take 2 ∧ shown (g.insn y) = (g.insn y).vals.take 2 ∧ (jmpName (f.insn x).op).isSome = true := by
            have o3 := I.op.symm
            cases ho : (f.insn x).op <;> rw [ho] at o2 o3 <;> first | exact Bool.noConfusion o2 | simp [arity, shown, ho, o3, jmpName]
          rw [ar.1] at hv
          obtain ⟨v, v1, ev0⟩ := two hv rfl
          have I2 := I.vals
          rw [ev0] at I2
          obtain ⟨w, w1, ew0, p, q⟩ := I2.two
          have sh : shown (f.insn x) = [v, v1] := by rw [ar.2.1, ev0]; rfl
          have sh' : shown (g.insn y) = [w, w1] := by rw [ar.2.2.1, ew0]; rfl
          unfold taken
          rw [ev0, ew0]
          dsimp only
          rw [ev1 h.toClear h'.toClear hs sx sy nx ny I p (by rw [sh]; simp) (by rw [sh']; simp), ev1 h.toClear h'.toClear hs sx sy nx ny I q (by rw [sh]; simp) (by rw [sh']; simp),
            I.alu (.inr (.inl ar.2.2.2)), I.op]
        rw [tk]
        cases taken (g.insn y) τ with
        | none => exact .stuck
        | some z =>
          cases z
          · exact enter_alike h h' T hs hb hc m1 m2
          · exact enter_alike h h' T hs hb hc l1 l2
      · rw [if_neg o2, if_neg o2]
        by_cases o3 : (f.insn x).op = .ret
        · rw [if_pos o3, if_pos o3]
          have o3' := I.op.symm.trans o3
          have hv := sx.vals
          rw [show arity (f.insn x) = some 1 by simp [arity, o3]] at hv
          obtain ⟨v, ev0⟩ := one hv rfl
          have I2 := I.vals
          rw [ev0] at I2
          obtain ⟨w, ew0, p⟩ := I2.one
          rw [ev0, ew0]
          dsimp only
          rw [ev1 h.toClear h'.toClear hs sx sy nx ny I p (by simp [shown, o3, ev0]) (by simp [shown, o3', ew0])]
          cases eval τ w with
          | none => exact .stuck
          | some z => exact .done z
        · rw [if_neg o3, if_neg o3]
          by_cases o4 : (f.insn x).op = .throw
          · rw [if_pos o4, if_pos o4]; exact .thrown
          · rw [if_neg o4, if_neg o4]
            by_cases o5 : (f.insn x).op = .phi
            · rw [if_pos o5, if_pos o5]; exact .stuck
            · rw [if_neg o5, if_neg o5]
              have ex := exec_alike h.toClear h'.toClear hW hs sx sy nx ny I num (by simpa using o2) ⟨o3, o4, o5, o1⟩
              have en : ends (f.insn x).op = false := by
                cases ho : (f.insn x).op <;> simp_all [ends, Norm.Op.condJmp]
              have en' : ends (g.insn y).op = false := I.op ▸ en
              cases hu : exec W x (f.insn x) σ <;> cases hv : exec W' y (g.insn y) τ <;> rw [hu, hv] at ex
              · exact .stuck
              · cases ex
              · cases ex
              · refine .goto n b c _ _ _ _ hb hc A ⟨pre ++ [x], by rw [e1]; simp, fun z hz => ?_⟩ ⟨pre' ++ [y], by rw [e1']; simp, fun z hz => ?_⟩ ex
                · rcases List.mem_append.1 hz with hz | hz
                  · exact e2 z hz
                  · rw [List.mem_singleton.1 hz]; exact en
                · rcases List.mem_append.1 hz with hz | hz
                  · exact e2' z hz
                  · rw [List.mem_singleton.1 hz]; exact en'

omit hs in
theorem run_alike : ∀ (k : Nat) {n b c : Nat} {r r' : List Nat} {σ τ : St}, MatchSt (SameName f t e g t' e') σ τ → R[n]? = some b → S[n]? = some c → All2 (Same f t e g t' e') r r' → (∃ pre, f.body b = pre ++ r ∧ ∀ x ∈ pre, ends (f.insn x).op = false) →
    (∃ pre, g.body c = pre ++ r' ∧ ∀ x ∈ pre, ends (g.insn x).op = false) → AlikeRes (run W f k b r σ) (run W' g k c r' τ)
  | 0, _, _, _, _, _, _, _, hs, _, _, _, _, _ => .running _ _ _ _ _ _ hs.mem hs.trace
  | k + 1, n, b, c, r, r', σ, τ, hs, hb, hc, A, P, P' => by
    have st := step_alike h h' T hW hs hb hc A P P'
    simp only [run]
    generalize step W f b r σ = u at st
    generalize step W' g c r' τ = v at st
    cases st with
    | goto n b c r r' σ τ h1 h2 h3 h4 h5 h6 => exact run_alike k h6 h1 h2 h3 h4 h5
    | done x => exact .done x _ _ hs.mem hs.trace
    | thrown => exact .thrown _ _ hs.mem hs.trace
    | stuck => exact .stuck

theorem runFn_alike (k : Nat) : AlikeRes (runFn W f k σ) (runFn W' g k τ) := by
  have h0 : R[0]? = some f.entry := by rw [← List.head?_eq_getElem?]; exact h.first
  have h0' : S[0]? = some g.entry := by rw [← List.head?_eq_getElem?]; exact h'.first
  obtain ⟨c, hc, tw⟩ := all2_get T h0
  rw [h0'] at hc
  injection hc with hc
  subst hc
  exact run_alike h h' T hW k hs h0 h0' tw.body ⟨[], rfl, by simp⟩ ⟨[], rfl, by simp⟩

end

end Verif.Show
