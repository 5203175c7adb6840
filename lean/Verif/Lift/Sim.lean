import Verif.Lift.Sem
/-!
# The lifted function behaves like the machine: block level
-/
namespace Verif.Lift
open Verif Verif.Bpf Verif.IR Verif.GenBB
set_option linter.unusedSimpArgs false
set_option linter.unusedVariables false

/-! ## Distance from the entry -/

inductive At (C : List Blk) : Nat → Nat → Prop
  | zero : At C 0 0
  | succ {b c n} : At C b n → c ∈ succsOf C b → At C c (n + 1)

def Reach (C : List Blk) (b : Nat) : Prop := ∃ n, At C b n

def IsDist (C : List Blk) (b n : Nat) : Prop := At C b n ∧ ∀ m, At C b m → n ≤ m

theorem exists_dist {C : List Blk} {b : Nat} (h : Reach C b) : ∃ k, IsDist C b k := by
  obtain ⟨n, hn⟩ := h
  induction n using Nat.strongRecOn with
  | ind n ih =>
    by_cases hm : ∃ m, At C b m ∧ m < n
    · obtain ⟨m, h1, h2⟩ := hm; exact ih m h2 h1
    · refine ⟨n, hn, fun m h1 => ?_⟩
      by_cases h2 : m < n
      · exact absurd ⟨m, h1, h2⟩ hm
      · omega

theorem IsDist.uniq {C : List Blk} {b n m : Nat} (h : IsDist C b n) (h' : IsDist C b m) : n = m :=
  Nat.le_antisymm (h.2 m h'.1) (h'.2 n h.1)

/-- What the simulation needs of a finished lift. -/
structure Fin (C : List Blk) (g : Gh) (s : LSt) : Prop where
  gi : GI C (fun _ => False) g s
  f0 : s.filled 0 = true
  edge : ∀ b c, b ∈ predsOf C c ↔ c ∈ succsOf C b
  live : ∀ b, Reach C b → ∀ p ∈ predsOf C b, Reach C p
  entry : predsOf C 0 = []
  dec : ∀ b, ∀ q ∈ insnsOf C b, ∃ i, decode q.slot = some i

theorem Fin.filled {C g s} (h : Fin C g s) {b} (hb : Reach C b) : s.filled b = true := by
  obtain ⟨n, hn⟩ := hb
  induction hn with
  | zero => exact h.f0
  | succ _ hc ih => exact (h.gi.suc _ _ ih hc).resolve_right id

theorem Fin.sealed {C g s} (h : Fin C g s) {b} (hb : Reach C b) : s.sealed b = true := by
  rcases h.gi.sea b (h.filled hb) with h1 | ⟨p, hp, h1⟩ | h1
  · exact h1
  · rw [h.filled (h.live b hb p hp)] at h1; simp at h1
  · exact h1.elim

theorem Fin.dist_pred {C g s} (h : Fin C g s) {b p n} (hb : b ≠ 0) (hd : IsDist C b n) (hp : predsOf C b = [p]) :
    ∃ k, n = k + 1 ∧ IsDist C p k := by
  obtain ⟨h1, h2⟩ := hd
  cases h1 with
  | zero => exact absurd rfl hb
  | @succ c _ k hc hm =>
    have : c ∈ predsOf C b := (h.edge c b).2 hm
    rw [hp] at this
    simp only [List.mem_singleton] at this
    subst this
    refine ⟨k, rfl, hc, fun j hj => ?_⟩
    have := h2 (j + 1) (.succ hj hm)
    omega

theorem Tr1.vals {ins a m xs m1 r y} (h : Tr1 ins a m xs m1) (hv : m1 r = some (.insn y)) :
    (∃ k, m k = some (.insn y)) ∨ y ∈ xs := by
  cases h with
  | @mov d o m v h1 h2 =>
    unfold wr upd at hv
    split at hv
    · exact .inl ⟨r, hv⟩
    · dsimp only at hv
      split at hv
      · cases hv
        cases o with
        | imm i => cases h1
        | reg k => exact .inl ⟨k, h1⟩
      · exact .inl ⟨r, hv⟩
  | @emit i a os d m av vs x h1 h2 h3 h4 =>
    cases d with
    | none => exact .inl ⟨r, hv⟩
    | some d =>
      simp only [wrO, wr] at hv
      split at hv
      · exact .inl ⟨r, hv⟩
      · unfold upd at hv
        split at hv
        · cases hv; exact .inr (by simp)
        · exact .inl ⟨r, hv⟩

theorem Tr.vals {ins as m xs m1 r y} (h : Tr ins as m xs m1) (hv : m1 r = some (.insn y)) :
    (∃ k, m k = some (.insn y)) ∨ y ∈ xs := by
  induction h generalizing r with
  | nil => exact .inl ⟨r, hv⟩
  | cons h0 h1 ih =>
    rcases ih hv with ⟨k, hk⟩ | h2
    · rcases h0.vals hk with h3 | h3
      · exact .inl h3
      · exact .inr (by simp [h3])
    · exact .inr (by simp [h2])

/-- Where the values known at the start of a block come from. -/
theorem Fin.own {C g s} (h : Fin C g s) : ∀ n b, IsDist C b n → ∀ r y, g.start b r = some (.insn y) →
    y < 6 ∨ y ∈ g.phis b ∨ ∃ a k, IsDist C a k ∧ k < n ∧ y ∈ s.body a := by
  intro n
  induction n using Nat.strongRecOn with
  | ind n ih =>
    intro b hd r y hy
    cases h.gi.inv.just b r _ hy with
    | sp h1 h2 => cases h2; exact .inl (by omega)
    | arg h1 h2 h3 h4 => cases h4; exact .inl (by omega)
    | phi x h1 h2 h3 h4 h5 h0 h6 h7 => cases h3; exact .inr (.inl h4)
    | copy p h1 h2 h3 h4 h5 =>
      obtain ⟨k, rfl, hk⟩ := h.dist_pred h1 hd h4
      rcases (h.gi.inv.tr p).vals h5 with ⟨r', h6⟩ | h6
      · rcases ih k (by omega) p hk r' y h6 with h7 | h7 | ⟨a, j, h7, h8, h9⟩
        · exact .inl h7
        · exact .inr (.inr ⟨p, k, hk, by omega, by rw [h.gi.inv.body]; simp [h7]⟩)
        · exact .inr (.inr ⟨a, j, h7, by omega, h9⟩)
      · exact .inr (.inr ⟨p, k, hk, by omega, by rw [h.gi.inv.body]; simp [h6]⟩)

/-- Values known at the end of the only predecessor are not defined in the block. -/
theorem Fin.notBody {C g s} (h : Fin C g s) {b p : Nat} (hr : Reach C b) (hb : b ≠ 0) (hp : predsOf C b = [p]) {r y : Nat}
    (hy : look s p r = some (.insn y)) : y ∉ s.body b := by
  obtain ⟨n, hd⟩ := exists_dist hr
  obtain ⟨k, rfl, hk⟩ := h.dist_pred hb hd hp
  intro hm
  have fin : ∀ a j, IsDist C a j → j < k + 1 → y ∈ s.body a → False := by
    intro a j h1 h2 h3
    have := h.gi.inv.disj _ _ _ h3 hm
    subst this
    have := h1.uniq hd
    omega
  rcases (h.gi.inv.tr p).vals hy with ⟨r', h6⟩ | h6
  · rcases h.own k p hk r' y h6 with h7 | h7 | ⟨a, j, h7, h8, h9⟩
    · have := h.gi.inv.rng b y hm; omega
    · exact fin p k hk (by omega) (by rw [h.gi.inv.body]; simp [h7])
    · exact fin a j h7 (by omega) h9
  · exact fin p k hk (by omega) (by rw [h.gi.inv.body]; simp [h6])

theorem Fin.fresh {C g s} (h : Fin C g s) {b : Nat} (hr : Reach C b) {x r : Nat} (hx : x ∈ g.code b) :
    g.start b r ≠ some (.insn x) := by
  intro hy
  have hm : x ∈ s.body b := by rw [h.gi.inv.body]; simp [hx]
  obtain ⟨n, hd⟩ := exists_dist hr
  rcases h.own n b hd r x hy with h7 | h7 | ⟨a, j, h7, h8, h9⟩
  · have := h.gi.inv.rng b x hm; omega
  · exact h.gi.inv.notCode h7 hx
  · have := h.gi.inv.disj _ _ _ h9 hm
    subst this
    have := h7.uniq hd
    omega

/-- Every phi of a reachable block lists the end values of all predecessors. -/
theorem Fin.complete {C g s} (h : Fin C g s) {b : Nat} (hr : Reach C b) {x : Nat} (hx : x ∈ g.phis b) :
    Complete C s b (g.preg x) x := by
  have hm : x ∈ s.body b := by rw [h.gi.inv.body]; simp [hx]
  have hrng := h.gi.inv.rng b x hm
  cases h.gi.inv.just b _ _ (h.gi.inv.phiR b x hx).1 with
  | sp h1 h2 => cases h2; omega
  | arg h1 h2 h3 h4 => simp only [Val.insn.injEq] at h4; omega
  | copy p h1 h2 h3 h4 h5 => exact absurd hm (h.notBody hr h1 h4 h5)
  | phi y h1 h2 h3 h4 h5 h0 h6 h7 =>
    cases h3
    rcases h7 with h7 | ⟨h7, _⟩ | h7
    · exact h7.elim
    · rw [h.sealed hr] at h7; simp at h7
    · exact h7

/-! ## Phis and code of a block -/

theorem plan_op {C : List Blk} {defd : Nat → Bool} {q : PreInsn} {j : Instr} {i : Insn} {a : Option Nat} {os : List Opd} {d : Option Nat}
    (hd : decode q.slot = some j) (h : plan C defd q = .ok (.emit i a os d)) : i.op ≠ .phi := by
  rw [plan_decode C defd q hd] at h
  cases j with
  | alu w op dd src =>
    simp only [planI] at h
    split at h
    · cases h
    · cases h; cases op <;> simp [irAlu]
  | swap be dd wd => simp only [planI] at h; cases h; cases be <;> simp
  | ldimm dd k => simp only [planI] at h; split at h <;> cases h; simp
  | ja off =>
    simp only [planI] at h
    obtain ⟨t, _, h⟩ := Out.bind_eq_ok.1 h
    cases h; simp
  | jcc w c dd src off =>
    simp only [planI] at h
    cases c <;> simp only [irCond] at h <;> try (cases h; done)
    all_goals
      obtain ⟨t, _, h⟩ := Out.bind_eq_ok.1 h
      obtain ⟨t2, _, h⟩ := Out.bind_eq_ok.1 h
      cases h; simp
  | call fid =>
    simp only [planI, planCall] at h
    repeat' split at h
    all_goals first | (cases h; simp; done) | cases h
  | _ => simp only [planI] at h; cases h; simp

theorem code_op {C : List Blk} {ins as m xs m1} (h : Tr ins as m xs m1) : ∀ {qs}, Planned C qs as →
    (∀ q ∈ qs, ∃ i, decode q.slot = some i) → ∀ x ∈ xs, (ins x).op ≠ .phi := by
  induction h with
  | nil => intro qs _ _ x hx; simp at hx
  | cons h0 h1 ih =>
    intro qs hp hd x hx
    cases hp with
    | @cons q qs' _ _ defd hpl hoff hp' =>
      rcases List.mem_append.1 hx with h2 | h2
      · cases h0 with
        | mov => simp at h2
        | emit e1 e2 e3 e4 =>
          simp only [List.mem_singleton] at h2
          subst h2
          obtain ⟨j, hj⟩ := hd q (by simp)
          rw [e3]
          exact fun e => plan_op hj hpl e
      · exact ih hp' (fun q hq => hd q (by simp [hq])) x h2

theorem takeWhile_append_of {α} {p : α → Bool} {l1 l2 : List α} (h1 : ∀ x ∈ l1, p x = true) (h2 : ∀ x ∈ l2, p x = false) :
    (l1 ++ l2).takeWhile p = l1 ∧ (l1 ++ l2).dropWhile p = l2 := by
  induction l1 with
  | nil =>
    cases l2 with
    | nil => simp
    | cons a l => simp [h2 a (by simp)]
  | cons a l ih =>
    have := ih (fun x hx => h1 x (by simp [hx]))
    simp [h1 a (by simp), this]

theorem Fin.split {C g s} (h : Fin C g s) {b : Nat} (hr : Reach C b) :
    phisOf (toFn C s) b = g.phis b ∧ codeOf (toFn C s) b = g.code b := by
  have hb : (toFn C s).body b = g.phis b ++ g.code b := h.gi.inv.body b
  unfold phisOf codeOf
  rw [hb]
  apply takeWhile_append_of
  · intro x hx
    have := (h.gi.inv.phiR b x hx).2
    simp [toFn, this]
  · intro x hx
    have := code_op (h.gi.inv.tr b) (h.gi.fil b (h.filled hr)) (h.dec b) x hx
    simp [toFn, this]

/-! ## Entering a block -/

theorem phiAssign_spec {f : Fn} {p : Nat} {τ : IR.St} (val : Nat → BitVec 64) (xs : List Nat)
    (h : ∀ x ∈ xs, phiVal (f.insn x) p τ = some (val x)) :
    phiAssign f p τ xs = some (fun y => if y ∈ xs then val y else τ.env y) := by
  induction xs with
  | nil => simp [phiAssign]
  | cons x xs ih =>
    simp only [phiAssign, h x (by simp), ih (fun y hy => h y (by simp [hy]))]
    simp only [Option.bind_eq_bind, Option.bind_some, Option.some.injEq]
    funext y
    by_cases hy : y = x
    · simp [hy]
    · simp [hy]

/-- In block `b` with the bytecode `qs` and the IR instructions `rest` left. -/
structure Pt (C : List Blk) (s : LSt) (b : Nat) (qs : List PreInsn) (rest : List Nat) (m : M) : Prop where
  tr : ∃ as, Planned C qs as ∧ Tr s.insn as m rest (look s b)
  fresh : ∀ x ∈ rest, ∀ r, m r ≠ some (.insn x)
  nodup : rest.Nodup
  dec : ∀ q ∈ qs, ∃ i, decode q.slot = some i

theorem Fin.pt {C g s} (h : Fin C g s) {b : Nat} (hr : Reach C b) : Pt C s b (insnsOf C b) (g.code b) (g.start b) where
  tr := ⟨_, h.gi.fil b (h.filled hr), h.gi.inv.tr b⟩
  fresh := fun x hx r => h.fresh hr hx
  nodup := by
    have := h.gi.inv.nodup b
    rw [h.gi.inv.body, List.nodup_append] at this
    exact this.2.1
  dec := h.dec b

theorem Fin.enter {C g s} (h : Fin C g s) {p b : Nat} (hp : Reach C p) (hb : b ∈ succsOf C p) {σ : Bpf.St} {τ : IR.St}
    (hr : Rel (look s p) σ τ) :
    ∃ τ', IR.enter (toFn C s) p b τ = .goto b (g.code b) τ' ∧ Rel (g.start b) σ τ' := by
  have hreach : Reach C b := by obtain ⟨n, hn⟩ := hp; exact ⟨n + 1, .succ hn hb⟩
  obtain ⟨e1, e2⟩ := h.split hreach
  have hpb : p ∈ predsOf C b := (h.edge p b).2 hb
  have hb0 : b ≠ 0 := by
    intro e; subst e; rw [h.entry] at hpb; simp at hpb
  have hphi : ∀ x ∈ phisOf (toFn C s) b, phiVal ((toFn C s).insn x) p τ = some (σ.reg (g.preg x)) := by
    intro x hx
    rw [e1] at hx
    obtain ⟨h1, h2⟩ := h.complete hreach hx
    change phiVal (s.insn x) p τ = _
    unfold phiVal
    have hm : p ∈ (s.insn x).phi.map Prod.fst := by rw [h1]; exact hpb
    cases hf : (s.insn x).phi.find? (fun o => o.1 == p) with
    | none =>
      rw [List.find?_eq_none] at hf
      obtain ⟨o, ho, e⟩ := List.mem_map.1 hm
      exact absurd (by simp [e]) (hf o ho)
    | some o =>
      have ho := List.mem_of_find?_eq_some hf
      have hop : o.1 = p := by simpa using List.find?_some hf
      have := (h2 o ho).2
      rw [hop] at this
      simp only [Option.bind_eq_bind, Option.bind_some]
      exact hr.reg _ _ this
  refine ⟨{ τ with env := fun y => if y ∈ phisOf (toFn C s) b then σ.reg (g.preg y) else τ.env y }, ?_, ?_, hr.mem, hr.trace⟩
  · unfold IR.enter
    rw [phiAssign_spec (fun x => σ.reg (g.preg x)) _ hphi, e2]
  · intro r v hv
    rw [e1]
    have keep : ∀ v, look s p r = some v → (∀ y, v = .insn y → y ∉ g.phis b) →
        eval ({ τ with env := fun y => if y ∈ g.phis b then σ.reg (g.preg y) else τ.env y } : IR.St) v = some (σ.reg r) := by
      intro v hv hn
      have := hr.reg r v hv
      cases v with
      | insn y => simp only [eval] at this ⊢; rw [if_neg (hn y rfl)]; exact this
      | const k c ct bb => exact this
      | undef => exact this
    cases h.gi.inv.just b r v hv with
    | sp h1 h2 =>
      subst h1; subst h2
      apply keep
      · rfl
      · intro y hy hm
        cases hy
        have := h.gi.inv.rng b 0 (by rw [h.gi.inv.body]; simp [hm])
        omega
    | arg h1 h2 h3 h4 => exact absurd h1 hb0
    | copy p' h1 h2 h3 h4 h5 =>
      have : p = p' := by rw [h4] at hpb; simpa using hpb
      subst this
      apply keep v h5
      intro y hy hm
      subst hy
      exact h.notBody hreach hb0 h4 h5 (by rw [h.gi.inv.body]; simp [hm])
    | phi x h1 h2 h3 h4 h5 h0 h6 h7 =>
      subst h3; subst h0
      simp [eval, h4]

end Verif.Lift
