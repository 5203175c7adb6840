import Verif.Throw.Trans
import Verif.Throw.Ways
import Verif.Guard.Run
import Verif.Spec.Paths
/-!
# Executions before and after the throw translation
-/
namespace Verif.Throw
open Verif Verif.IR Verif.Edit Verif.Guard Verif.Count

/-- The throws `T` have become returns of `v`, with new instructions `N x` in front of `x`. -/
structure Swapped (f g : Fn) (T : List Nat) (N : Nat → List Nat) (v : Val) : Prop where
  insn : ∀ y, InBody f y → y ∉ T → g.insn y = f.insn y
  ret : ∀ x ∈ T, (g.insn x).op = .ret ∧ (g.insn x).vals = [v]
  other : ∀ c ∈ f.allBbs, (∀ x ∈ T, f.parent x ≠ c) → g.body c = f.body c
  site : ∀ x ∈ T, (f.insn x).op = .throw ∧ f.parent x ∈ f.allBbs ∧ ∃ A, f.body (f.parent x) = A ++ [x] ∧ g.body (f.parent x) = A ++ N x ++ [x]
  fresh : ∀ x ∈ T, ∀ y ∈ N x, (g.insn y).op ≠ .phi
  all : ∀ b, Conn f b → ∀ x ∈ f.body b, (f.insn x).op = .throw → x ∈ T
  succs : g.succs = f.succs
  entry : g.entry = f.entry

variable {W : World} {f g : Fn} {T : List Nat} {N : Nat → List Nat} {v : Val}

/-- Positions of the two executions in the block `c`. -/
inductive Pos2 (f : Fn) (T : List Nat) (N : Nat → List Nat) (c : Nat) : List Nat → List Nat → Prop
  | other {r} : (∀ x ∈ T, f.parent x ≠ c) → (∃ A, f.body c = A ++ r) → Pos2 f T N c r r
  | site {x R} : x ∈ T → f.parent x = c → (∃ A, f.body c = A ++ R ++ [x]) → Pos2 f T N c (R ++ [x]) (R ++ N x ++ [x])

theorem Swapped.body (S : Swapped f g T N v) {c : Nat} (hc : c ∈ f.allBbs) : Pos2 f T N c (f.body c) (g.body c) := by
  by_cases h : ∃ x ∈ T, f.parent x = c
  · obtain ⟨x, hx, rfl⟩ := h
    obtain ⟨_, _, A, h1, h2⟩ := S.site x hx
    rw [h1, h2]
    exact .site hx rfl ⟨[], by simp [h1]⟩
  · have h' : ∀ x ∈ T, f.parent x ≠ c := fun x hx e => h ⟨x, hx, e⟩
    rw [S.other c hc h']
    exact .other h' ⟨[], by simp⟩

theorem Swapped.op_phi (S : Swapped f g T N v) (hs : Shape f) {c y : Nat} (hc : c ∈ f.allBbs) (hy : y ∈ f.body c) : ((g.insn y).op == .phi) = ((f.insn y).op == .phi) := by
  by_cases h : y ∈ T
  · rw [(S.ret y h).1, (S.site y h).1]; rfl
  · rw [S.insn y ⟨c, hc, hy⟩ h]

theorem Swapped.code (S : Swapped f g T N v) (hs : Shape f) {c : Nat} (hc : c ∈ f.allBbs) : phisOf g c = phisOf f c ∧ Pos2 f T N c (codeOf f c) (codeOf g c) := by
  have hop := fun y hy => S.op_phi hs hc (y := y) hy
  unfold phisOf codeOf
  by_cases h : ∃ x ∈ T, f.parent x = c
  · obtain ⟨x, hx, rfl⟩ := h
    obtain ⟨ht, _, A, h1, h2⟩ := S.site x hx
    have hA : ∀ y ∈ A, ((g.insn y).op == .phi) = ((f.insn y).op == .phi) := fun y hy => hop y (by rw [h1]; simp [hy])
    have hAA := takeWhile_congr (l := A) hA
    have hx1 : ((f.insn x).op == .phi) = false := by rw [ht]; rfl
    have hx2 : ((g.insn x).op == .phi) = false := by rw [(S.ret x hx).1]; rfl
    have hNx : (N x ++ [x]).takeWhile (fun y => (g.insn y).op == .phi) = [] ∧ (N x ++ [x]).dropWhile (fun y => (g.insn y).op == .phi) = N x ++ [x] := by
      cases hN : N x with
      | nil => simp [hx2]
      | cons y ys =>
        have : ((g.insn y).op == .phi) = false := by simpa using S.fresh x hx y (by rw [hN]; simp)
        simp [List.takeWhile_cons, List.dropWhile_cons, this]
    rw [h1, h2, List.append_assoc]
    rw [dropWhile_split, dropWhile_split, hNx.2]
    have hall : A.all (fun y => (g.insn y).op == .phi) = A.all (fun y => (f.insn y).op == .phi) := by
      rw [Bool.eq_iff_iff]
      simp only [List.all_eq_true]
      exact ⟨fun h y hy => by rw [← hA y hy]; exact h y hy, fun h y hy => by rw [hA y hy]; exact h y hy⟩
    refine ⟨?_, ?_⟩
    · have key : ∀ (p : Nat → Bool) (B : List Nat), B.takeWhile p = [] → (A ++ B).takeWhile p = A.takeWhile p := by
        intro p B hB
        clear hop hA hAA hall h1 h2
        induction A with
        | nil => simpa using hB
        | cons a A ih => simp only [List.cons_append, List.takeWhile_cons]; split <;> simp_all
      rw [key _ _ hNx.1, key _ _ (by simp [hx1]), hAA.1]
    · rw [hall]
      split
      · have h3 : [x].dropWhile (fun y => (f.insn y).op == .phi) = [] ++ [x] := by simp [hx1]
        rw [h3]
        have : N x ++ [x] = [] ++ N x ++ [x] := by simp
        rw [this]
        exact .site hx rfl ⟨A, by rw [h1]; simp⟩
      · rw [hAA.2, ← List.append_assoc]
        obtain ⟨B, hB⟩ := List.dropWhile_suffix (fun x => (f.insn x).op == .phi) (l := A)
        exact .site hx rfl ⟨B, by rw [h1, hB]⟩
  · have h' : ∀ x ∈ T, f.parent x ≠ c := fun x hx e => h ⟨x, hx, e⟩
    have := takeWhile_congr (l := f.body c) hop
    rw [S.other c hc h', this.1, this.2]
    obtain ⟨B, hB⟩ := List.dropWhile_suffix (fun x => (f.insn x).op == .phi) (l := f.body c)
    exact ⟨rfl, .other h' ⟨B, hB.symm⟩⟩

/-- Related steps. -/
inductive Steps (f : Fn) (T : List Nat) (N : Nat → List Nat) : Step → Step → Prop
  | goto {c r r' τ} : Conn f c → Pos2 f T N c r r' → Steps f T N (.goto c r τ) (.goto c r' τ)
  | done {x} : Steps f T N (.done x) (.done x)
  | stuck : Steps f T N .stuck .stuck

theorem Swapped.enter (S : Swapped f g T N v) (hs : Shape f) {c t : Nat} (hc : Conn f c) (ht : t ∈ f.succs c) (σ : St) :
    Steps f T N (IR.enter f c t σ) (IR.enter g c t σ) := by
  have htc : Conn f t := .step hc ht
  have htm := Conn.mem hs htc
  obtain ⟨h1, h2⟩ := S.code hs htm
  unfold IR.enter
  rw [h1, phiAssign_congr c σ (phisOf f t) fun x hx => S.insn x ⟨t, htm, (phisOf_body hx).1⟩ fun hxT => by
    have := (phisOf_body hx).2
    rw [(S.site x hxT).1] at this; cases this]
  split
  · exact .goto htc h2
  · exact .stuck

theorem Swapped.step (S : Swapped f g T N v) (hs : Shape f) {c : Nat} {r r' : List Nat} (hc : Conn f c) (p : Pos2 f T N c r r') (σ : St) :
    Steps f T N (IR.step W f c r σ) (IR.step W g c r' σ) ∨ ∃ x ∈ T, f.parent x = c ∧ r = [x] ∧ r' = N x ++ [x] := by
  have hcm := Conn.mem hs hc
  have hins : ∀ {x R R'}, (∃ A, f.body c = A ++ x :: R) → x ∉ T → Pos2 f T N c R R' → Steps f T N (IR.step W f c (x :: R) σ) (IR.step W g c (x :: R') σ) := by
    intro x R R' hx hxT hp
    obtain ⟨A, hA⟩ := hx
    have hxb : x ∈ f.body c := by rw [hA]; simp
    have hw := hs.wired c hcm x hxb
    have hnt : (f.insn x).op ≠ .throw := fun h => hxT (S.all c hc x hxb h)
    refine step_insn (Q := fun a b => b = .thrown ∨ Steps f T N a b) (S.insn x ⟨c, hcm, hxb⟩ hxT) (fun h => .inr (S.enter hs hc (hw.1 h) σ)) (fun h => .inr (S.enter hs hc (hw.2 h).1 σ))
      (fun h => .inr (S.enter hs hc (hw.2 h).2 σ)) (fun _ => .inr .done) (.inl rfl) (.inr .stuck) (fun _ τ => .inr (.goto hc hp)) |>.elim ?_ id
    intro h
    exfalso
    have hi := S.insn x ⟨c, hcm, hxb⟩ hxT
    simp only [IR.step, hi] at h
    unfold IR.enter at h
    repeat' split at h
    all_goals cases h
  cases p with
  | @other r ho hA =>
    left
    cases r with
    | nil =>
      simp only [IR.step, S.succs]
      split
      · rename_i t ht
        exact S.enter hs hc (by rw [ht]; simp) σ
      · exact .stuck
    | cons x R =>
      obtain ⟨A, hA⟩ := hA
      refine hins ⟨A, hA⟩ (fun hx => ho x hx (hs.tidy.parent c hcm x (by rw [hA]; simp))) (.other ho ⟨A ++ [x], by rw [hA]; simp⟩)
  | @site x R hx hp hA =>
    cases R with
    | nil => exact .inr ⟨x, hx, hp, rfl, by simp⟩
    | cons y R =>
      left
      obtain ⟨A, hA⟩ := hA
      simp only [List.cons_append]
      refine hins ⟨A, by rw [hA]; simp⟩ ?_ (.site hx hp ⟨A ++ [y], by rw [hA]; simp⟩)
      intro hy
      have := hs.last c hcm A y (R ++ [x]) (by rw [hA]; simp) (by rw [(S.site y hy).1]; rfl)
      simp at this

/-- The executions agree up to a throw. -/
theorem Swapped.lock (S : Swapped f g T N v) (hs : Shape f) : ∀ (m : Nat) {c : Nat} {r r' : List Nat} {σ : St}, Conn f c → Pos2 f T N c r r' →
    match run W f m c r σ with
    | .running c1 r1 τ => ∃ r1', run W g m c r' σ = .running c1 r1' τ ∧ Conn f c1 ∧ Pos2 f T N c1 r1 r1'
    | .done y τ => run W g m c r' σ = .done y τ
    | .stuck => run W g m c r' σ = .stuck
    | .thrown τ => ∃ j x, j < m ∧ x ∈ T ∧ run W f j c r σ = .running (f.parent x) [x] τ ∧ run W g j c r' σ = .running (f.parent x) (N x ++ [x]) τ := by
  intro m
  induction m with
  | zero => intro c r r' σ hc p; exact ⟨r', rfl, hc, p⟩
  | succ m ih =>
    intro c r r' σ hc p
    rcases S.step (W := W) hs hc p σ with h | ⟨x, hx, hp, rfl, rfl⟩
    · simp only [run]
      generalize ha : IR.step W f c r σ = a at h
      generalize hb : IR.step W g c r' σ = b at h
      cases h with
      | @goto c1 r1 r1' τ hc1 p1 =>
        have := ih (σ := τ) hc1 p1
        have lift : ∀ {τ1}, (∃ j x, j < m ∧ x ∈ T ∧ run W f j c1 r1 τ = .running (f.parent x) [x] τ1 ∧ run W g j c1 r1' τ = .running (f.parent x) (N x ++ [x]) τ1) →
            ∃ j x, j < m + 1 ∧ x ∈ T ∧ run W f j c r σ = .running (f.parent x) [x] τ1 ∧ run W g j c r' σ = .running (f.parent x) (N x ++ [x]) τ1 := by
          rintro τ1 ⟨j, x, h1, h2, h3, h4⟩
          exact ⟨j + 1, x, by omega, h2, by simp only [run, ha]; exact h3, by simp only [run, hb]; exact h4⟩
        revert this
        dsimp only
        cases hrun : run W f m c1 r1 τ with
        | done y τ1 => exact id
        | stuck => exact id
        | thrown τ1 => exact fun h => lift h
        | running c2 r2 τ1 => exact id
      | done => rfl
      | stuck => rfl
    · have : IR.step W f c [x] σ = .thrown := by
        simp only [IR.step, (S.site x hx).1]; rfl
      simp only [run, this]
      exact ⟨0, x, by omega, hx, by rw [hp]; rfl, by rw [hp]; rfl⟩

/-! ## The end of an execution -/

theorem run_plain {f : Fn} {b x : Nat} {r : List Nat} {σ τ : St} (hp : plain (f.insn x).op = true) (he : exec W x (f.insn x) σ = some τ) (m : Nat) :
    run W f (m + 1) b (x :: r) σ = run W f m b r τ := by
  simp only [run, step_plain hp, he]

theorem evalAll_discard {σ : St} {q : Nat} : evalAll σ [.insn q, const32 0] = some [σ.env q, 0] := rfl

/-- The calls of `bpf_ringbuf_discard`. -/
theorem run_discards {n b : Nat} : ∀ (L D : List Nat) {r : List Nat} {τ : St}, D.map g.insn = L.map discard → (∀ y ∈ D, n ≤ y) → (∀ q ∈ L, q < n) → ∀ (m : Nat),
    ∃ τ', run W g (D.length + m) b (D ++ r) τ = run W g m b r τ' ∧ τ'.trace = τ.trace ++ L.map (fun q => ⟨0x85, [τ.env q, 0]⟩) ∧ ∀ y, y < n → τ'.env y = τ.env y := by
  intro L
  induction L with
  | nil =>
    intro D r τ hD _ _ m
    have : D = [] := by simpa using hD
    subst this
    exact ⟨τ, by simp, by simp, fun _ _ => rfl⟩
  | cons q L ih =>
    intro D r τ hD hn hL m
    cases D with
    | nil => simp at hD
    | cons d D =>
      simp only [List.map_cons, List.cons.injEq] at hD
      have hp : plain (g.insn d).op = true := by rw [hD.1]; rfl
      have he : exec W d (g.insn d) τ = some { (τ.set d (W.bpf.call τ.trace 0x85 [τ.env q, 0] τ.mem).ret) with mem := (W.bpf.call τ.trace 0x85 [τ.env q, 0] τ.mem).mem, trace := τ.trace ++ [⟨0x85, [τ.env q, 0]⟩] } := by
        rw [hD.1]; rfl
      obtain ⟨τ', h1, h2, h3⟩ := ih D (r := r) hD.2 (fun y hy => hn y (List.mem_cons_of_mem _ hy)) (fun y hy => hL y (List.mem_cons_of_mem _ hy)) m
        (τ := { (τ.set d (W.bpf.call τ.trace 0x85 [τ.env q, 0] τ.mem).ret) with mem := (W.bpf.call τ.trace 0x85 [τ.env q, 0] τ.mem).mem, trace := τ.trace ++ [⟨0x85, [τ.env q, 0]⟩] })
      have hd := hn d (List.mem_cons_self ..)
      have hold : ∀ y, y < n → (τ.set d (W.bpf.call τ.trace 0x85 [τ.env q, 0] τ.mem).ret).env y = τ.env y := fun y hy => by
        simp only [St.set]; rw [if_neg (by omega)]
      refine ⟨τ', ?_, ?_, fun y hy => ?_⟩
      · rw [List.length_cons, Nat.add_right_comm, List.cons_append, run_plain hp he, h1]
      · rw [h2]
        simp only [List.map_cons, List.append_assoc, List.singleton_append]
        congr 2
        exact List.map_congr_left fun y hy => by rw [hold y (hL y (List.mem_cons_of_mem _ hy))]
      · rw [h3 y hy]; exact hold y hy

theorem run_message {b a s1 s2 e c : Nat} (M : Msg g a s1 s2 e c) {r : List Nat} {τ : St} (m : Nat) :
    ∃ τ', run W g (5 + m) b ([a, s1, s2, e, c] ++ r) τ = run W g m b r τ' ∧ τ'.trace = τ.trace ++ [⟨6, [W.arr a, 5]⟩] := by
  have e0 : 5 + m = m + 1 + 1 + 1 + 1 + 1 := by omega
  rw [e0]
  simp only [List.cons_append, List.nil_append]
  have E1 : ∃ τ1, exec W a (g.insn a) τ = some τ1 ∧ τ1.env a = W.arr a ∧ τ1.trace = τ.trace := by
    rw [M.alloc]; exact ⟨_, rfl, by simp [St.set], rfl⟩
  obtain ⟨τ1, x1, y1, t1⟩ := E1
  have E2 : ∃ τ2, exec W s1 (g.insn s1) τ1 = some τ2 ∧ τ2.env = τ1.env ∧ τ2.trace = τ1.trace := by
    rw [M.st1]; exact ⟨_, rfl, rfl, rfl⟩
  obtain ⟨τ2, x2, y2, t2⟩ := E2
  have E3 : ∃ τ3, exec W s2 (g.insn s2) τ2 = some τ3 ∧ τ3.env = τ2.env ∧ τ3.trace = τ2.trace := by
    rw [M.st2]; exact ⟨_, rfl, rfl, rfl⟩
  obtain ⟨τ3, x3, y3, t3⟩ := E3
  have E4 : ∃ τ4, exec W e (g.insn e) τ3 = some τ4 ∧ τ4.env e = τ3.env a ∧ τ4.trace = τ3.trace := by
    rw [M.elem]; exact ⟨_, rfl, by simp [St.set, eval], rfl⟩
  obtain ⟨τ4, x4, y4, t4⟩ := E4
  have E5 : ∃ τ5, exec W c (g.insn c) τ4 = some τ5 ∧ τ5.trace = τ4.trace ++ [⟨6, [τ4.env e, 5]⟩] := by
    rw [M.call]; exact ⟨_, rfl, rfl⟩
  obtain ⟨τ5, x5, t5⟩ := E5
  refine ⟨τ5, ?_, ?_⟩
  · rw [run_plain (by rw [M.alloc]; rfl) x1, run_plain (by rw [M.st1]; rfl) x2, run_plain (by rw [M.st2]; rfl) x3, run_plain (by rw [M.elem]; rfl) x4, run_plain (by rw [M.call]; rfl) x5]
  · rw [t5, y4, y3, y2, y1, t4, t3, t2, t1]

theorem run_ret {b x : Nat} {c : BitVec 32} (h1 : (g.insn x).op = .ret) (h2 : (g.insn x).vals = [const32 c]) (τ : St) (m : Nat) : run W g (m + 1) b [x] τ = .done (c.signExtend 64) τ := by
  simp [run, IR.step, h1, h2, const32, eval, Norm.Op.condJmp]

/-- From the throw to the end. -/
theorem run_exit {msg : Bool} {L M : List Nat} {n b x : Nat} (E : Exit msg L g M) (hM : ∀ y ∈ M, n ≤ y) (hL : ∀ q ∈ L, q < n) (h1 : (g.insn x).op = .ret)
    (h2 : (g.insn x).vals = [const32 0]) (τ : St) :
    ∃ m τ', (∀ k, run W g (m + k) b (M ++ [x]) τ = .done 0 τ') ∧ ∃ p, τ'.trace = τ.trace ++ L.map (fun q => ⟨0x85, [τ.env q, 0]⟩) ++ if msg then [⟨6, [p, 5]⟩] else [] := by
  obtain ⟨D, M', rfl, hD, hm⟩ := E
  cases msg with
  | false =>
    have : M' = [] := by simpa using hm
    subst this
    simp only [List.append_nil] at hM ⊢
    obtain ⟨τ', a1, a2, _⟩ := run_discards (W := W) (b := b) L D (r := [x]) (τ := τ) hD hM hL 1
    refine ⟨D.length + 1, τ', fun k => ?_, 0, by rw [a2]; simp⟩
    have hrd := a1
    rw [run_ret h1 h2] at hrd
    exact run_more hrd (by simp) k
  | true =>
    simp only [if_true] at hm
    obtain ⟨a, s1, s2, e, c, rfl, hMsg⟩ := hm
    obtain ⟨τ', a1, a2, _⟩ := run_discards (W := W) (b := b) L D (r := [a, s1, s2, e, c] ++ [x]) (τ := τ) hD (fun y hy => hM y (List.mem_append_left _ hy)) hL (5 + 1)
    obtain ⟨τ'', b1, b2⟩ := run_message (W := W) (b := b) hMsg (r := [x]) (τ := τ') 1
    refine ⟨D.length + (5 + 1), τ'', fun k => ?_, W.arr a, by rw [b2, a2]; simp⟩
    rw [b1, run_ret h1 h2] at a1
    rw [List.append_assoc]
    exact run_more a1 (by simp) k
where
  run_more {m b : Nat} {r : List Nat} {τ : St} {R : Res} (h : run W g m b r τ = R) (hR : ∀ c r τ, R ≠ .running c r τ) (k : Nat) : run W g (m + k) b r τ = R := by
    induction m generalizing b r τ with
    | zero => exact absurd h.symm (hR _ _ _)
    | succ m ih =>
      rw [Nat.succ_add]
      simp only [run] at h ⊢
      cases hst : IR.step W g b r τ with
      | goto c1 r1 τ1 => rw [hst] at h; exact ih h
      | done y => rw [hst] at h; exact h
      | thrown => rw [hst] at h; exact h
      | stuck => rw [hst] at h; exact h

theorem run_add {f : Fn} : ∀ (j : Nat) {c : Nat} {r : List Nat} {σ : St} {c1 : Nat} {r1 : List Nat} {τ : St}, run W f j c r σ = .running c1 r1 τ → ∀ m, run W f (j + m) c r σ = run W f m c1 r1 τ := by
  intro j
  induction j with
  | zero => intro c r σ c1 r1 τ h m; cases h; simp
  | succ j ih =>
    intro c r σ c1 r1 τ h m
    rw [Nat.succ_add]
    simp only [run] at h ⊢
    cases hst : IR.step W f c r σ with
    | goto c2 r2 τ2 => rw [hst] at h; exact ih h m
    | done y => rw [hst] at h; cases h
    | thrown => rw [hst] at h; cases h
    | stuck => rw [hst] at h; cases h

/-- Where the execution is, with its history. -/
theorem path_onWay {f : Fn} (hs : Shape f) : ∀ (j : Nat) {c : Nat} {r H : List Nat} {σ : St} {c1 : Nat} {r1 : List Nat} {τ : St}, OnWay f c r H → run W f j c r σ = .running c1 r1 τ →
    OnWay f c1 r1 (H ++ path W f j c r σ) := by
  intro j
  induction j with
  | zero => intro c r H σ c1 r1 τ h hr; cases hr; simpa [path] using h
  | succ j ih =>
    intro c r H σ c1 r1 τ h hr
    simp only [run] at hr
    simp only [path]
    cases hst : IR.step W f c r σ with
    | goto c2 r2 τ2 =>
      rw [hst] at hr
      have := ih (onWay_step hs h hst) hr
      simpa using this
    | done y => rw [hst] at hr; cases hr
    | thrown => rw [hst] at hr; cases hr
    | stuck => rw [hst] at hr; cases hr

end Verif.Throw
