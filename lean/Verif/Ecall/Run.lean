import Verif.Ecall.Whole
import Verif.Guard.Checked
import Verif.Msan.Mem
/-!
# Executions up to a redirected access
-/
namespace Verif.Ecall
open Verif Verif.IR Verif.Edit Verif.Guard

/-! ## Where the new instructions are -/

theorem Chain.head {g : Fn} {S : List Nat} {b x : Nat} {r : List Nat} (h : Chain g S b (x :: r)) : ∃ r', g.body b = x :: r' := by
  generalize hl : x :: r = l at h
  cases h with
  | last _ h1 _ => exact ⟨r, by rw [h1, hl]⟩
  | @cut _ c j n e t l r2 _ h1 =>
    cases l with
    | nil => cases hl; exact ⟨[], h1⟩
    | cons y l => cases hl; exact ⟨l ++ [j], h1⟩

/-- A check `j` with `T` in front of it and `x` behind it. -/
theorem Chain.find {g : Fn} (hs : Shape g) {S : List Nat} {b : Nat} {l : List Nat} (h : Chain g S b l) {T M : List Nat} {j x c n e : Nat}
    (hT : ∀ y ∈ T, (g.insn y).op ≠ .jeq) (hj : g.insn j = nullCheck c n e) : ∀ {L : List Nat}, l = L ++ T ++ j :: x :: M →
    ∃ b' l' r, b' ∈ g.allBbs ∧ n ∈ g.allBbs ∧ g.body b' = l' ++ T ++ [j] ∧ g.succs b' = [n, e] ∧ g.preds n = [b'] ∧ n ≠ e ∧ g.entry ≠ n ∧ g.body n = x :: r := by
  have hje : ends (g.insn j).op = true := by rw [hj]; rfl
  induction h with
  | @last b l hb hl _ =>
    intro L e1
    have := hs.last b hb (L ++ T) j (x :: M) (by rw [hl, e1]) hje
    cases this
  | @cut b c' j' n' e' t l r hb hl hj' h1 h2 h3 h4 h5 h6 hr ih =>
    intro L e1
    have hjj : (g.insn j').op = .jeq := by rw [hj']; rfl
    have same : l = L ++ T → j' = j → r = x :: M → ∃ b' l' r, b' ∈ g.allBbs ∧ n ∈ g.allBbs ∧ g.body b' = l' ++ T ++ [j] ∧ g.succs b' = [n, e] ∧
        g.preds n = [b'] ∧ n ≠ e ∧ g.entry ≠ n ∧ g.body n = x :: r := by
      intro q1 q2 q3
      subst q2
      rw [hj'] at hj
      have en : n' = n := congrArg Insn.bb1 hj
      have ee : e' = e := congrArg Insn.bb2 hj
      subst en ee
      rw [q3] at hr
      obtain ⟨r', hr'⟩ := hr.head
      exact ⟨b, L, r', hb, hr.mem, by rw [hl, q1], h1, h2, h3, h6, hr'⟩
    rcases List.append_eq_append_iff.1 e1 with ⟨C, q1, q2⟩ | ⟨C, q1, q2⟩
    · cases C with
      | nil =>
        simp at q1 q2
        exact same q1.symm q2.1 q2.2
      | cons y C =>
        simp only [List.cons_append, List.cons.injEq] at q2
        obtain ⟨q2, q3⟩ := q2
        subst q2
        rcases List.append_eq_append_iff.1 q1 with ⟨D, d1, d2⟩ | ⟨D, d1, d2⟩
        · exact absurd hjj (hT _ (by rw [d2]; simp))
        · cases D with
          | nil =>
            simp at d2
            exact absurd hjj (hT _ (by rw [← d2]; simp))
          | cons z D =>
            simp only [List.cons_append, List.cons.injEq] at d2
            exact ih (L := D) (by rw [q3, d2.2])
    · cases C with
      | nil =>
        simp at q1 q2
        exact same q1 q2.1.symm q2.2.symm
      | cons y C =>
        simp only [List.cons_append, List.cons.injEq] at q2
        have := hs.last b hb (L ++ T) j (C ++ [j']) (by rw [hl, q1, ← q2.1]; simp) hje
        simp at this

/-- An instruction that is not a check, and `x` behind it. -/
theorem Chain.next {g : Fn} {S : List Nat} {b : Nat} {l : List Nat} (h : Chain g S b l) {M : List Nat} {p x : Nat} (hp : (g.insn p).op ≠ .jeq) :
    ∀ {L : List Nat}, l = L ++ p :: x :: M → ∃ b' A B, b' ∈ g.allBbs ∧ g.body b' = A ++ p :: x :: B := by
  induction h with
  | @last b l hb hl _ => intro L e1; exact ⟨b, L, M, hb, by rw [hl, e1]⟩
  | @cut b c' j' n' e' t l r hb hl hj' h1 h2 h3 h4 h5 h6 hr ih =>
    intro L e1
    have hjj : (g.insn j').op = .jeq := by rw [hj']; rfl
    rcases List.append_eq_append_iff.1 e1 with ⟨C, q1, q2⟩ | ⟨C, q1, q2⟩
    · cases C with
      | nil =>
        simp at q2
        exact absurd (q2.1 ▸ hjj) hp
      | cons y C =>
        simp only [List.cons_append, List.cons.injEq] at q2
        exact ih (L := C) q2.2
    · cases C with
      | nil =>
        simp at q2
        exact absurd (q2.1 ▸ hjj) hp
      | cons y C =>
        simp only [List.cons_append, List.cons.injEq] at q2
        obtain ⟨q2, q3⟩ := q2
        subst q2
        cases C with
        | nil =>
          simp at q3
          exact ⟨b, L, [], hb, by rw [hl, q1, q3.1]; simp⟩
        | cons z C =>
          simp only [List.cons_append, List.cons.injEq] at q3
          exact ⟨b, L, C ++ [j'], hb, by rw [hl, q1, q3.1]; simp⟩

/-! ## Where an execution comes from -/

variable {W : World} {g : Fn} {σ : St}

theorem run_back : ∀ (m : Nat) {c r} {σ : St} {c1 r1 τ}, run W g (m + 1) c r σ = .running c1 r1 τ →
    ∃ c0 r0 τ0, run W g m c r σ = .running c0 r0 τ0 ∧ IR.step W g c0 r0 τ0 = .goto c1 r1 τ
  | 0, c, r, σ, c1, r1, τ, h => by
    refine ⟨c, r, σ, rfl, ?_⟩
    rw [run] at h
    split at h
    · rename_i hs
      simp only [run] at h
      cases h
      exact hs
    · cases h
    · cases h
    · cases h
  | m + 1, c, r, σ, c1, r1, τ, h => by
    rw [run] at h
    rw [run]
    split at h
    · exact run_back m h
    · cases h
    · cases h
    · cases h

theorem at_run (hs : Shape g) {k c : Nat} {r : List Nat} {τ : St} (h : runFn W g k σ = .running c r τ) : At g c r :=
  run_inv (W := W) (f := g) (fun c r _ => At g c r) (fun _ _ _ _ _ _ h1 h2 => At.step hs h1 h2) k (At.start hs) h

theorem came (hs : Shape g) {k c y z : Nat} {A r : List Nat} {τ : St} (h : runFn W g k σ = .running c (y :: r) τ) (hb : g.body c = A ++ z :: y :: r)
    (hz : (g.insn z).op ≠ .phi) : ∃ k' τ0, runFn W g k' σ = .running c (z :: y :: r) τ0 ∧ exec W z (g.insn z) τ0 = some τ := by
  cases k with
  | zero =>
    have h' : Res.running g.entry (g.body g.entry) σ = .running c (y :: r) τ := h
    have e1 : g.entry = c := by injection h'
    have e2 : g.body g.entry = y :: r := by injection h'
    rw [e1, hb] at e2
    have := congrArg List.length e2
    simp at this
    omega
  | succ k =>
    obtain ⟨c0, r0, τ0, h1, h2⟩ := run_back k h
    rcases step_cases h2 with ⟨x, h3, h4, h5, h6⟩ | ⟨h3, h4, _⟩
    · subst h4 h3
      have ha := (at_run (W := W) (σ := σ) hs h1).2
      obtain ⟨A', hA⟩ := ha
      rw [hb] at hA
      have e1 : A' ++ [x] ++ (y :: r) = A ++ [z] ++ (y :: r) := by simpa using hA
      have e2 := List.append_inj_left' e1 rfl
      have e3 : x = z := by
        have := List.append_inj_right' e2 rfl
        simpa using this
      subst e3
      exact ⟨k, τ0, h1, h6⟩
    · exfalso
      unfold codeOf at h4
      rw [hb, dropWhile_split] at h4
      have := congrArg List.length h4
      split at this
      · rw [List.dropWhile_cons, if_neg (by simpa using hz)] at this
        simp at this
      · simp at this
        omega

theorem jumped (hs : Shape g) {k b n e c j x : Nat} {l r : List Nat} {τ : St} (h : runFn W g k σ = .running n (x :: r) τ) (hb : b ∈ g.allBbs)
    (hn : g.body n = x :: r) (hx : (g.insn x).op ≠ .phi) (hp : g.preds n = [b]) (hbb : g.body b = l ++ [j]) (hj : g.insn j = nullCheck c n e)
    (hsu : g.succs b = [n, e]) (hne : n ≠ e) (hen : g.entry ≠ n) : ∃ k', runFn W g k' σ = .running b [j] τ ∧ taken (nullCheck c n e) τ = some false := by
  cases k with
  | zero =>
    have h' : Res.running g.entry (g.body g.entry) σ = .running n (x :: r) τ := h
    have e1 : g.entry = n := by injection h'
    exact absurd e1 hen
  | succ k =>
    obtain ⟨c0, r0, τ0, h1, h2⟩ := run_back k h
    have ha := at_run (W := W) (σ := σ) hs h1
    rcases step_cases h2 with ⟨y, h3, h4, h5, h6⟩ | ⟨h3, h4, p, h5, h6⟩
    · subst h4 h3
      obtain ⟨A, hA⟩ := ha.2
      rw [hn] at hA
      have := congrArg List.length hA
      simp at this
      omega
    · have hph : phisOf g n = [] := by
        unfold phisOf
        rw [hn, List.takeWhile_cons, if_neg (by simpa using hx)]
      rw [hph] at h5
      simp only [phiAssign] at h5
      cases h5
      have hτ : τ = τ0 := h6
      subst hτ
      have hs0 := Way.succ hs ha h3
      have hnall : n ∈ g.allBbs := (hs.graph.succs c0 ha.1).2 n hs0
      have hc0 : c0 = b := by
        have := (hs.graph.sym c0 ha.1 n hnall).1 hs0
        rw [hp] at this
        exact List.mem_singleton.1 this
      subst hc0
      have hlast : ∀ y r', r0 = y :: r' → ends (g.insn y).op = true → r0 = [j] := by
        intro y r' e1 e2
        obtain ⟨A, hA⟩ := ha.2
        rw [e1] at hA
        have e3 := hs.last c0 ha.1 A y r' hA.symm e2
        subst e3
        rw [hbb] at hA
        rw [e1]
        exact List.append_inj_right' hA rfl
      have key : taken (nullCheck c n e) τ = some false ∧ r0 = [j] := by
        generalize hq : n = q at h3
        cases h3 with
        | fall h => rw [hsu] at h; simp at h
        | @ja y r' h =>
          have := hlast y r' rfl (ends_ja h)
          cases this
          rw [hj] at h
          cases h
        | @no y r' h ht =>
          have := hlast y r' rfl (ends_cond h)
          cases this
          rw [hj] at ht
          exact ⟨ht, rfl⟩
        | @yes y r' h ht =>
          have := hlast y r' rfl (ends_cond h)
          cases this
          rw [hj] at hq
          exact absurd hq hne
      rw [key.2] at h1
      exact ⟨k, h1, key.1⟩

/-! ## Memory -/

theorem load_of_bytes : ∀ (n : Nat) {m : Bpf.Mem} {a v : BitVec 64}, (∀ i, i < n → m (a + BitVec.ofNat 64 i) = (v >>> (8 * i)).setWidth 8) →
    ∀ j, j < 64 → (Bpf.load n m a).getLsbD j = (decide (j < 8 * n) && v.getLsbD j)
  | 0, _, _, _, _, j, _ => by simp [Bpf.load]
  | n + 1, m, a, v, h, j, hj => by
    have h0 : m a = v.setWidth 8 := by
      have := h 0 (by omega)
      simpa using this
    have ih := load_of_bytes n (m := m) (a := a + 1) (v := v >>> 8) (fun i hi => by
      rw [Msan.addr_succ, h (i + 1) (by omega), Nat.mul_add, ← BitVec.shiftRight_add, Nat.add_comm]) 
    rw [Bpf.load, BitVec.getLsbD_or, BitVec.getLsbD_shiftLeft, h0]
    simp only [BitVec.getLsbD_setWidth]
    by_cases h8 : j < 8
    · simp [h8, hj]
      intro h1; omega
    · rw [ih (j - 8) (by omega), BitVec.getLsbD_ushiftRight]
      have e1 : 8 + (j - 8) = j := by omega
      rw [e1]
      have e2 : decide (j - 8 < 8 * n) = decide (j < 8 * (n + 1)) := by
        rw [decide_eq_decide]; omega
      rw [e2]
      simp [h8, hj]

theorem load_store (m : Bpf.Mem) (a v : BitVec 64) : Bpf.load 8 (Bpf.store 8 m a v) a = v := by
  apply BitVec.eq_of_getLsbD_eq
  intro j hj
  rw [load_of_bytes 8 (v := v) (fun i hi => Msan.store_in 8 (by decide) hi) j hj]
  simp [hj]

/-! ## The redirected load -/

theorem key_ext (a : BitVec 16) : (a.signExtend 32).signExtend 64 = a.signExtend 64 := by
  apply BitVec.eq_of_toInt_eq
  rw [BitVec.toInt_signExtend_of_le (by decide), BitVec.toInt_signExtend_of_le (by decide), BitVec.toInt_signExtend_of_le (by decide)]

theorem mem_list {f : Fn} {R : List Nat} {e m : Nat} {pre : Nat → List Nat} (hR : Redirected f R e m g pre) {b x : Nat}
    (hb : b ∈ f.allBbs) (hx : x ∈ f.body b) (hxe : x ≠ e) : ∃ L M, Chain g (f.succs b) b (L ++ pre x ++ x :: M) := by
  have hc := hR.blocks b hb
  have hxf : x ∈ (f.body b).filter (· != e) := List.mem_filter.2 ⟨hx, by simpa using hxe⟩
  obtain ⟨L, M, hl⟩ := List.append_of_mem hxf
  rw [hl, List.flatMap_append, List.flatMap_cons] at hc
  refine ⟨L.flatMap fun x => pre x ++ [x], M.flatMap fun x => pre x ++ [x], ?_⟩
  simpa using hc

theorem at_head (hs : Shape g) {k b n x : Nat} {r0 r : List Nat} {τ : St} (h : runFn W g k σ = .running b (x :: r0) τ) (hn : n ∈ g.allBbs)
    (hl : g.body n = x :: r) : b = n ∧ r0 = r := by
  have ha := at_run (W := W) (σ := σ) hs h
  have hxb : x ∈ g.body b := ha.2.subset (by simp)
  have hbn : b = n := by rw [← hs.tidy.parent b ha.1 x hxb, hs.tidy.parent n hn x (by rw [hl]; simp)]
  subst hbn
  obtain ⟨A, hA⟩ := ha.2
  rw [hl] at hA
  have hnd := hs.tidy.nodup b hn
  rw [hl] at hnd
  cases A with
  | nil => simp at hA; exact ⟨rfl, hA⟩
  | cons y A =>
    simp at hA
    exact absurd (by rw [← hA.2]; simp) (List.nodup_cons.1 hnd).1

theorem set_env_ne {τ : St} {x y : Nat} {v : BitVec 64} (h : y ≠ x) : (τ.set x v).env y = τ.env y := if_neg h
theorem set_env {τ : St} {x : Nat} {v : BitVec 64} : (τ.set x v).env x = v := if_pos rfl

theorem looked {f : Fn} {R : List Nat} {e m : Nat} {pre : Nat → List Nat} (ht : Tidy f) (hm : Live f m) (hR : Redirected f R e m g pre) {b x c : Nat}
    (hb : b ∈ f.allBbs) (hx : x ∈ f.body b) (hxe : x ≠ e) (hh : Heap f x) (hl : LoadDone f m g x (pre x) c) {τ : St} (hr : Reaches W g σ x τ) :
    LookedUp W f m c x τ := by
  have hs := hR.shape
  have hfr := hR.fresh x
  obtain ⟨L, M, hch⟩ := mem_list hR hb hx hxe
  obtain ⟨ks, v, a, s, p, j, n, e', hpre, hk, ia, is, ip, ic, ij, ix⟩ := hl
  obtain ⟨hraw, y, hy, _⟩ := hh
  have hxl : Live f x := .inr (.inr ⟨b, hb, hx⟩)
  have hyl : Live f y := ht.closed x y hxl (refs_pos.2 (by rw [← hy]; exact operands_addr hraw))
  have hylt := ht.lt y hyl
  have hmlt := ht.lt m hm
  rw [hpre] at hch hfr
  have hfa := hfr a (by simp)
  have hfp := hfr p (by simp)
  have hfc := hfr c (by simp)
  have hkop : ∀ z ∈ ks, (g.insn z).op = .add := by
    intro z hz
    rcases hk with ⟨_, rfl, _⟩ | ⟨_, q, rfl, _, hq⟩
    · cases hz
    · rw [List.mem_singleton.1 hz, hq]
  obtain ⟨b', l', r, hb', hnb, hbody, hsu, hpr, hne, hen, hnx⟩ := hch.find hs (T := ks ++ [a, s, p, c]) (M := M) (j := j) (x := x) (L := L) (by
    intro z hz
    rcases List.mem_append.1 hz with h | h
    · rw [hkop z h]; simp
    · simp at h
      rcases h with rfl | rfl | rfl | rfl
      · rw [ia]; simp
      · rw [is]; simp
      · rw [ip]; simp
      · rw [ic]; simp) ij (by simp)
  obtain ⟨k, b0, r0, hrun⟩ := hr
  obtain ⟨rfl, rfl⟩ := at_head hs hrun hnb hnx
  have hxop : (g.insn x).op ≠ .phi := by
    rw [ix]
    exact IsRaw.not_phi hraw
  obtain ⟨k4, h4, htk⟩ := jumped hs hrun hb' hnx hxop hpr (l := l' ++ (ks ++ [a, s, p, c])) (by rw [hbody]) ij hsu hne hen
  obtain ⟨k3, τ3, h3, x3⟩ := came hs h4 (A := l' ++ ks ++ [a, s, p]) (z := c) (by rw [hbody]; simp) (by rw [ic]; simp)
  obtain ⟨k2, τ2, h2, x2⟩ := came hs h3 (A := l' ++ ks ++ [a, s]) (z := p) (by rw [hbody]; simp) (by rw [ip]; simp)
  obtain ⟨k1, τ1, h1, x1⟩ := came hs h2 (A := l' ++ ks ++ [a]) (z := s) (by rw [hbody]; simp) (by rw [is]; simp)
  obtain ⟨k0, τ0, h0, x0⟩ := came hs h1 (A := l' ++ ks) (z := a) (by rw [hbody]; simp) (by rw [ia]; simp)
  have hnd := hs.tidy.nodup b' hb'
  -- the value stored
  have hkey : eval (τ0.set a (W.arr a)) v = some (τ0.env y + (f.insn x).addrOff.signExtend 64) := by
    rcases hk with ⟨o0, _, rfl⟩ | ⟨_, q, rfl, rfl, hq⟩
    · rw [hy, o0]
      change some ((τ0.set a (W.arr a)).env y) = _
      rw [set_env_ne (by omega)]
      simp
    · have hqa : q ≠ a := by
        intro e1
        rw [hbody, e1] at hnd
        have := (List.nodup_append.1 hnd).1
        have := (List.nodup_append.1 this).2.1
        simp at this
      obtain ⟨kq, τq, hq1, xq⟩ := came hs h0 (A := l') (z := q) (by rw [hbody]; simp) (by rw [hq]; simp)
      rw [hq, hy] at xq
      have hτ0 : τ0 = τq.set q (τq.env y + (f.insn x).addrOff.signExtend 64) := by
        rw [← key_ext]
        exact (Option.some.inj xq).symm
      have hfq := hfr q (by simp)
      change some ((τ0.set a (W.arr a)).env q) = _
      rw [set_env_ne hqa, hτ0, set_env, set_env_ne (by omega)]
  have e1 : τ1 = τ0.set a (W.arr a) := by
    rw [ia] at x0
    exact (Option.some.inj x0).symm
  have e2 : τ2 = { τ1 with mem := Bpf.store 8 τ1.mem (τ1.env a + (0 : BitVec 16).signExtend 64) (τ0.env y + (f.insn x).addrOff.signExtend 64) } := by
    rw [is] at x1
    rw [← e1] at hkey
    simp only [exec, hkey] at x1
    exact (Option.some.inj x1).symm
  have e3 : τ3 = τ2.set p (τ2.env a + 0) := by
    rw [ip] at x2
    exact (Option.some.inj x2).symm
  have ha1 : τ1.env a = W.arr a := by rw [e1, set_env]
  have ha2 : τ2.env a = W.arr a := by rw [e2]; exact ha1
  have hp3 : τ3.env p = W.arr a := by rw [e3, set_env, ha2]; simp
  have hm3 : τ3.mem = Bpf.store 8 τ1.mem (W.arr a) (τ0.env y + (f.insn x).addrOff.signExtend 64) := by
    rw [e3, e2, ha1]
    simp [St.set]
  have e4 : τ = { (τ3.set c (W.bpf.call τ3.trace 1 [τ3.env m, τ3.env p] τ3.mem).ret) with
      mem := (W.bpf.call τ3.trace 1 [τ3.env m, τ3.env p] τ3.mem).mem, trace := τ3.trace ++ [⟨1, [τ3.env m, τ3.env p]⟩] } := by
    rw [ic] at x3
    exact (Option.some.inj x3).symm
  have hmm : τ.env m = τ3.env m := by rw [e4]; exact set_env_ne (by omega)
  have hcc : τ.env c = (W.bpf.call τ3.trace 1 [τ3.env m, τ3.env p] τ3.mem).ret := by rw [e4]; exact set_env
  have hyy : τ.env y = τ0.env y := by
    rw [e4]
    refine (set_env_ne (by omega)).trans ?_
    rw [e3, set_env_ne (by omega), e2]
    change τ1.env y = _
    rw [e1, set_env_ne (by omega)]
  refine ⟨τ0.env y, W.arr a, τ3.mem, τ3.trace, ?_, ?_, ?_, ?_, ?_, ?_⟩
  · rw [hy, ← hyy]; rfl
  · rw [hm3, load_store]
  · rw [hmm, ← hp3, e4]
  · rw [hmm, ← hp3, hcc]
  · rw [hmm, ← hp3, e4]
  · intro h5
    simp [taken, nullCheck, Flat.condOp, Flat.width, eval, h5, Bpf.cond, Bpf.condW] at htk

/-! ## The redirected store -/

theorem stored {f : Fn} {R : List Nat} {e m : Nat} {pre : Nat → List Nat} (ht : Tidy f) (hm : Live f m) (hR : Redirected f R e m g pre) {b x : Nat}
    (hb : b ∈ f.allBbs) (hx : x ∈ f.body b) (hxe : x ≠ e) (hh : Heap f x) (hl : StoreDone f m g x (pre x)) {τ : St} (hr : Reaches W g σ x τ) :
    ∃ A, eval τ (f.insn x).addr = some A ∧ eval τ (g.insn x).addr = some (τ.env m + A) := by
  have hs := hR.shape
  have hfr := hR.fresh x
  obtain ⟨L, M, hch⟩ := mem_list hR hb hx hxe
  obtain ⟨p, hpre, ip, ix⟩ := hl
  obtain ⟨hraw, y, hy, _⟩ := hh
  have hxl : Live f x := .inr (.inr ⟨b, hb, hx⟩)
  have hylt := ht.lt y (ht.closed x y hxl (refs_pos.2 (by rw [← hy]; exact operands_addr hraw)))
  have hmlt := ht.lt m hm
  rw [hpre] at hch hfr
  have hfp := hfr p (by simp)
  obtain ⟨b', A, B, hb', hbody⟩ := hch.next (p := p) (x := x) (L := L) (M := M) (by rw [ip]; simp) (by simp)
  obtain ⟨k, b0, r0, hrun⟩ := hr
  have ha := at_run (W := W) (σ := σ) hs hrun
  have hxb : x ∈ g.body b0 := ha.2.subset (by simp)
  have hbn : b0 = b' := by rw [← hs.tidy.parent b0 ha.1 x hxb, hs.tidy.parent b' hb' x (by rw [hbody]; simp)]
  subst hbn
  have hr0 : r0 = B := by
    obtain ⟨A', hA⟩ := ha.2
    have hnd := hs.tidy.nodup b0 hb'
    rw [hbody] at hA
    rw [hbody] at hnd
    have hnd' : ((A ++ [p]) ++ x :: B).Nodup := by simpa using hnd
    have hA' : A' ++ x :: r0 = (A ++ [p]) ++ x :: B := by simpa using hA
    have h1 : x ∉ A ++ [p] := fun hm => (List.nodup_append.1 hnd').2.2 x hm x (by simp) rfl
    have h2 : x ∉ A' := by
      rw [← hA'] at hnd'
      exact fun hm => (List.nodup_append.1 hnd').2.2 x hm x (by simp) rfl
    have c1 := (cut h1 B).2
    have c2 := (cut h2 r0).2
    rw [hA', c1] at c2
    injection c2 with _ c3
    exact c3.symm
  subst hr0
  obtain ⟨k', τ0, _, x0⟩ := came hs hrun hbody (by rw [ip]; simp)
  rw [ip, hy] at x0
  have e0 : τ = τ0.set p (τ0.env m + τ0.env y) := (Option.some.inj x0).symm
  refine ⟨τ.env y, by rw [hy]; rfl, ?_⟩
  rw [ix]
  change some (τ.env p) = _
  rw [e0, set_env, set_env_ne (by omega), set_env_ne (by omega)]

end Verif.Ecall
