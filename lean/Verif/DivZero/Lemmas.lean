import Verif.DivZero.Model
import Verif.Guard.Checked
/-!
# Lemmas about the division-by-zero pass
-/
namespace Verif.DivZero
open Verif Verif.IR Verif.Edit Verif.Guard
set_option linter.unusedSimpArgs false

/-- The check in front of `d`. -/
def jump (y n e : Nat) : Insn := mkJbin .jeq .w64 (.insn y) (const32 0) n e

theorem taken_jump (y n e : Nat) (σ : St) : taken (jump y n e) σ = some (decide (σ.env y = 0)) := by
  simp [taken, jump, mkJbin, Flat.condOp, Flat.width, eval, const32, Bpf.cond]
  congr 1

theorem prev_none {f : Fn} {d : Nat} (hd : d ∈ f.body (f.parent d)) : prevInsn f d = none ↔ (f.body (f.parent d)).head? = some d := by
  obtain ⟨A, B, h1, h2, h3, h4⟩ := take_drop _ _ hd
  unfold prevInsn
  rw [h3, h1]
  cases A with
  | nil => simp
  | cons a A =>
    have : a ≠ d := fun e => h2 (by rw [e]; simp)
    simp [this, List.getLast?_cons]

theorem addCheck_spec {f g : Fn} {d p y : Nat} (hs : Shape f) (hd : InBody f d) (hp : prevInsn f d = some p)
    (h : addCheck f d p (.insn y) = .ok g) : ∃ n e A B, f.body (f.parent d) = (A ++ [p]) ++ d :: B ∧
      Guard f (f.parent d) n e (A ++ [p]) (d :: B) (jump y n e) g := by
  obtain ⟨b, hb, hdb⟩ := hd
  have hpar := hs.tidy.parent b hb d hdb
  obtain ⟨A0, B, h1, h2, h3, h4⟩ := take_drop _ _ hdb
  have hA : ∃ A, A0 = A ++ [p] := by
    unfold prevInsn at hp
    rw [hpar, h3] at hp
    rw [List.getLast?_eq_some_iff] at hp
    exact hp
  obtain ⟨A, rfl⟩ := hA
  rw [hpar]
  have hnd := hs.tidy.nodup b hb
  rw [h1] at hnd
  have hpA : p ∉ A := by
    have := (List.nodup_append.1 hnd).1
    exact fun hm => (List.nodup_append.1 this).2.2 p hm p (by simp) rfl
  have hpb : p ∈ f.body b := by rw [h1]; simp
  have hpp := hs.tidy.parent b hb p hpb
  have hcut := cut hpA (d :: B)
  have hl : f.body b = A ++ p :: d :: B := by rw [h1]; simp
  unfold addCheck at h
  rw [hpar] at h
  dsimp only at h
  cases hsp : split f p .back with
  | err => rw [hsp] at h; cases h
  | crit => rw [hsp] at h; cases h
  | ub => rw [hsp] at h; cases h
  | ok f1 =>
    rw [hsp] at h
    dsimp only at h
    rcases split_spec hs.graph (by rw [hpp]; exact hb) (by rw [hpp]; exact hpb) hsp with ⟨h', _⟩ | ⟨_, S⟩
    · cases h'
    · rw [hpp, hl, hcut.1, hcut.2] at S
      simp only [List.tail_cons] at S
      have hw := withErr_spec f1
      change (match createAt (withErr f1) (jump y (freshBb f) (freshBb f1)) p .back with
        | .ok f3 => Out.ok (connect f3 b (freshBb f1)) | .err => .err | .crit => .crit | .ub => .ub) = .ok g at h
      cases hc : createAt (withErr f1) (jump y (freshBb f) (freshBb f1)) p .back with
      | err => rw [hc] at h; cases h
      | crit => rw [hc] at h; cases h
      | ub => rw [hc] at h; cases h
      | ok f3 =>
        rw [hc] at h
        cases h
        have heb : b ≠ freshBb f1 := fun e => fresh_not_mem f1 (by rw [← e, S.allBbs]; exact List.mem_append_left _ hb)
        have hlt : ∀ x ∈ A ++ [p], x < f.next := fun x hx => lt_of_body hs.tidy hb (by rw [h1]; exact List.mem_append_left _ hx)
        have hpt : p ∉ d :: B := fun hm => (List.nodup_append.1 hnd).2.2 p (by simp) p hm rfl
        have hpp1 : (withErr f1).parent p = b := by
          rw [hw.2.2.2.2.2.2.2.1, upd_ne _ _ (by have := hlt p (by simp); rw [S.next]; omega), S.parent, if_neg hpt, hpp]
        have hbody1 : (withErr f1).body b = A ++ [p] := by
          rw [hw.2.2.2.2.2.2.1, upd_ne _ _ heb, S.body b hb, if_pos rfl]
        have hins : ∀ x, x < f.next → (withErr f1).insn x = f.insn x := fun x hx => by
          rw [hw.1, upd_ne _ _ (by rw [S.next]; omega), S.insn]
        have hA3 := added_createAt hc (by rw [hpp1, hbody1]; simp)
        have hB3 := createAt_last hc (A := A) (by rw [hpp1, hbody1]) hpA (by
          intro hop x hx
          have hx' := hlt x (List.mem_append_left _ hx)
          rw [hins p (hlt p (by simp))] at hop
          rw [hins x hx']
          cases hxo : decide ((f.insn x).op = .phi) with
          | true => exact of_decide_eq_true hxo
          | false =>
            exfalso
            refine hs.phis b hb p ?_ hop
            unfold codeOf
            obtain ⟨C, D, rfl⟩ := List.append_of_mem hx
            have : f.body b = C ++ (x :: (D ++ p :: d :: B)) := by rw [hl]; simp
            rw [this]
            apply dropWhile_append_sub
            rw [List.dropWhile_cons, if_neg]
            · simp
            · simpa using hxo) (by
          intro x hx
          have := hlt x hx
          rw [hw.2.1, S.next]; omega)
        rw [hpp1] at hA3 hB3
        refine ⟨freshBb f, freshBb f1, A, B, h1, ?_⟩
        have S' : Split f b (freshBb f) (A ++ [p]) (d :: B) f1 := S
        exact guard_mk S' hb hA3.insn hA3.next (hA3.sp.trans hw.2.2.1) (hA3.args.trans hw.2.2.2.1) (hA3.entry.trans hw.2.2.2.2.1) hA3.allBbs
          (fun c hc => hA3.body c hc) (by rw [show (connect f3 b (freshBb f1)).body b = f3.body b from rfl, hB3]; simp)
          hA3.parent (by simp only [connect, hA3.succs]) (by simp only [connect, hA3.preds]) rfl rfl rfl hs.graph

/-! ## The whole pass -/

/-- The division `d` gets a check for the value `y`: it is not the first instruction of its block. -/
def Checks (f : Fn) (d y : Nat) : Prop := (f.insn d).vals[1]? = some (.insn y) ∧ (f.body (f.parent d)).head? ≠ some d

/-- There are no phis behind the block of `d`. -/
def NoPhis (f : Fn) (d : Nat) : Prop := ∀ t ∈ f.succs (f.parent d), phisOf f t = []

/-- The execution of `f` gets to one of the divisions `ds` with divisor zero, and `g` throws there. -/
def Trap (W : World) (f g : Fn) (σ : St) (ds : List Nat) : Prop :=
  ∃ d ∈ ds, ∃ y τ, Checks f d y ∧ Reaches W f σ d τ ∧ τ.env y = 0 ∧ ∃ m, runFn W g m σ = .thrown τ

structure Result (W : World) (f : Fn) (ds : List Nat) (g : Fn) : Prop where
  shape : Shape g
  next : f.next ≤ g.next
  insn : ∀ x < f.next, g.insn x = f.insn x
  safe : ∀ σ τ, ∀ d ∈ ds, ∀ y, Checks f d y → Reaches W g σ d τ → τ.env y ≠ 0
  back : ∀ σ τ x, x < f.next → Reaches W g σ x τ → Reaches W f σ x τ
  done : ∀ σ m x τ, runFn W g m σ = .done x τ → ∃ k, runFn W f k σ = .done x τ
  thrown : ∀ σ m τ, runFn W g m σ = .thrown τ → (∃ k, runFn W f k σ = .thrown τ) ∨ ∃ d ∈ ds, ∃ y, Checks f d y ∧ Reaches W f σ d τ ∧ τ.env y = 0
  stuck : ∀ σ m, runFn W g m σ = .stuck → (∀ d ∈ ds, NoPhis f d) → ∃ k, runFn W f k σ = .stuck
  fwd : (∀ d ∈ ds, NoPhis f d) → ∀ σ k, (∃ m, k ≤ m ∧ SameRes (runFn W f k σ) (runFn W g m σ)) ∨ Trap W f g σ ds
  reach : (∀ d ∈ ds, NoPhis f d) → ∀ σ τ x, x < f.next → Reaches W f σ x τ → Reaches W g σ x τ ∨ Trap W f g σ ds

theorem Result.refl (W : World) {f : Fn} (hs : Shape f) {ds : List Nat} (h : ∀ d ∈ ds, ∀ y, ¬ Checks f d y) : Result W f ds f where
  shape := hs
  next := Nat.le_refl _
  insn := fun _ _ => rfl
  safe := fun σ τ d hd y hc _ => absurd hc (h d hd y)
  back := fun _ _ _ _ h => h
  done := fun _ m _ _ h => ⟨m, h⟩
  thrown := fun _ m _ h => .inl ⟨m, h⟩
  stuck := fun _ m h _ => ⟨m, h⟩
  fwd := fun _ σ k => .inl ⟨k, Nat.le_refl _, by cases runFn W f k σ <;> constructor⟩
  reach := fun _ _ _ _ _ h => .inl h

theorem sameRes_trans {a b c : Res} (h1 : SameRes a b) (h2 : SameRes b c) : SameRes a c := by
  cases h1 <;> cases h2 <;> constructor

theorem Trap.back {W : World} {f g h : Fn} {σ : St} {ds ds' : List Nat} (hsub : ∀ d ∈ ds, d ∈ ds') (hlt : ∀ d ∈ ds, d < f.next)
    (hc : ∀ d ∈ ds, ∀ y, Checks g d y → Checks f d y) (hb : ∀ σ τ x, x < f.next → Reaches W g σ x τ → Reaches W f σ x τ)
    (t : Trap W g h σ ds) : Trap W f h σ ds' := by
  obtain ⟨d, hd, y, τ, h1, h2, h3, h4⟩ := t
  exact ⟨d, hsub d hd, y, τ, hc d hd y h1, hb σ τ d (hlt d hd) h2, h3, h4⟩

theorem Result.trans {W : World} {f g h : Fn} {d : Nat} {ds : List Nat} (R1 : Result W f [d] g) (R2 : Result W g ds h)
    (hlt : ∀ x ∈ d :: ds, x < f.next) (hc : ∀ x ∈ ds, ∀ y, Checks g x y ↔ Checks f x y)
    (hn : (∀ x ∈ d :: ds, NoPhis f x) → ∀ x ∈ ds, NoPhis g x) : Result W f (d :: ds) h := by
  have hone : (∀ x ∈ d :: ds, NoPhis f x) → ∀ x ∈ [d], NoPhis f x := by
    intro hp x hx
    rw [List.mem_singleton.1 hx]
    exact hp d (List.mem_cons_self ..)
  have hlt2 : ∀ x ∈ ds, x < f.next := fun x hx => hlt x (List.mem_cons_of_mem _ hx)
  have tb : ∀ {σ}, Trap W g h σ ds → Trap W f h σ (d :: ds) := fun t =>
    Trap.back (fun x hx => List.mem_cons_of_mem _ hx) hlt2 (fun x hx y => (hc x hx y).1) R1.back t
  have tf : (∀ x ∈ d :: ds, NoPhis f x) → ∀ {σ}, Trap W f g σ [d] → Trap W f h σ (d :: ds) := by
    intro hp σ ⟨x, hx, y, τ, h1, h2, h3, m, h4⟩
    rw [List.mem_singleton.1 hx] at h1 h2
    rcases R2.fwd (hn hp) σ m with ⟨m', _, h5⟩ | t
    · rw [h4] at h5
      refine ⟨d, List.mem_cons_self .., y, τ, h1, h2, h3, m', ?_⟩
      generalize runFn W h m' σ = res at h5
      cases h5
      rfl
    · exact tb t
  refine ⟨R2.shape, Nat.le_trans R1.next R2.next, ?_, ?_, ?_, ?_, ?_, ?_, ?_, ?_⟩
  · intro x hx; rw [R2.insn x (Nat.lt_of_lt_of_le hx R1.next), R1.insn x hx]
  · intro σ τ x hx y hcx hr
    rcases List.mem_cons.1 hx with rfl | hx
    · exact R1.safe σ τ x (by simp) y hcx (R2.back σ τ x (Nat.lt_of_lt_of_le (hlt x (by simp)) R1.next) hr)
    · exact R2.safe σ τ x hx y ((hc x hx y).2 hcx) hr
  · intro σ τ x hx hr; exact R1.back σ τ x hx (R2.back σ τ x (Nat.lt_of_lt_of_le hx R1.next) hr)
  · intro σ m x τ hd
    obtain ⟨k, hk⟩ := R2.done σ m x τ hd
    exact R1.done σ k x τ hk
  · intro σ m τ ht
    rcases R2.thrown σ m τ ht with ⟨k, hk⟩ | ⟨x, hx, y, h1, h2, h3⟩
    · rcases R1.thrown σ k τ hk with hk | ⟨x, hx, y, h1, h2, h3⟩
      · exact .inl hk
      · rw [List.mem_singleton.1 hx] at h1 h2
        exact .inr ⟨d, List.mem_cons_self .., y, h1, h2, h3⟩
    · exact .inr ⟨x, List.mem_cons_of_mem _ hx, y, (hc x hx y).1 h1, R1.back σ τ x (hlt2 x hx) h2, h3⟩
  · intro σ m hst hp
    obtain ⟨k, hk⟩ := R2.stuck σ m hst (hn hp)
    exact R1.stuck σ k hk (hone hp)
  · intro hp σ k
    rcases R1.fwd (hone hp) σ k with ⟨m, hm, h1⟩ | t
    · rcases R2.fwd (hn hp) σ m with ⟨m', hm', h2⟩ | t
      · exact .inl ⟨m', by omega, sameRes_trans h1 h2⟩
      · exact .inr (tb t)
    · exact .inr (tf hp t)
  · intro hp σ τ x hx hr
    rcases R1.reach (hone hp) σ τ x hx hr with h1 | t
    · rcases R2.reach (hn hp) σ τ x (Nat.lt_of_lt_of_le hx R1.next) h1 with h2 | t
      · exact .inl h2
      · exact .inr (tb t)
    · exact .inr (tf hp t)

/-- Something of `f` is in front of the head of the moved instructions. -/
theorem fails_reaches {W : World} {f : Fn} {b d : Nat} {B : List Nat} {i : Insn} {k : Nat} {σ τ : St}
    (h : Fails W f b (d :: B) i k f.entry (f.body f.entry) σ τ) : Reaches W f σ d τ := ⟨k, b, B, h.1⟩

/-- One check. -/
theorem result_one {W : World} {f g : Fn} {d y n e : Nat} {hd B : List Nat} (hs : Shape f) (hdb : InBody f d)
    (hv : (f.insn d).vals[1]? = some (.insn y)) (hop : (f.insn d).op = .div) (hh : (f.body (f.parent d)).head? ≠ some d)
    (G : Guard f (f.parent d) n e hd (d :: B) (jump y n e) g) : Result W f [d] g := by
  have ho : GOk f (d :: B) := ⟨hs, fun x hx => by cases hx; rw [hop]; simp⟩
  have hdl : Live f d := .inr (.inr hdb)
  have hsg : Shape g := G.shape hs (by
    intro z hz
    have : z = y := by
      rw [refs_pos] at hz
      simpa [operands, jump, mkJbin, const32, raw] using hz
    rw [this]
    refine hs.tidy.closed d y hdl (refs_pos.2 ?_)
    unfold operands
    exact List.mem_append_left _ (List.mem_append_left _ (List.mem_of_getElem? hv)))
  have hck : Checks f d y := ⟨hv, hh⟩
  have hy : ∀ z, Checks f d z → z = y := fun z hz => by
    have := hz.1
    rw [hv] at this
    cases this
    rfl
  have hzero : ∀ τ : St, taken (jump y n e) τ = some true → τ.env y = 0 := fun τ h => by
    rw [taken_jump] at h
    simpa using h
  refine ⟨hsg, by rw [G.next]; omega, fun x hx => G.insn_old hx, ?_, ?_, ?_, ?_, ?_, ?_, ?_⟩
  · intro σ τ x hx z hz hr
    rw [List.mem_singleton.1 hx] at hz hr
    rw [hy z hz]
    have := G.checked ho hsg rfl hr
    rw [taken_jump] at this
    simpa using this
  · exact fun σ τ x hx hr => G.reaches ho hx hr
  · intro σ m x τ h
    have := G.backward (W := W) ho m σ (G.start hs)
    unfold runFn at h
    rw [h] at this
    exact this
  · intro σ m τ h
    have := G.backward (W := W) ho m σ (G.start hs)
    unfold runFn at h
    rw [h] at this
    rcases this with h | ⟨k, h⟩
    · exact .inl h
    · exact .inr ⟨d, by simp, y, hck, fails_reaches h, hzero τ h.2⟩
  · intro σ m h hp
    have := G.backward (W := W) ho m σ (G.start hs)
    unfold runFn at h
    rw [h] at this
    rcases this with h | ⟨t, h1, h2⟩ | ⟨τ, h⟩
    · exact h
    · exact absurd (hp d (by simp) t h1) h2
    · rw [taken_jump] at h; cases h
  · intro hp σ k
    rcases G.forward (W := W) ho (hp d (by simp)) (fun σ => by rw [taken_jump]; simp) k σ (G.start hs) with ⟨m, h1, h2⟩ | ⟨k', _, m, τ, h1, h2⟩
    · refine .inl ⟨m, h1, ?_⟩
      unfold runFn
      revert h2
      unfold Goes
      cases run W f k f.entry (f.body f.entry) σ with
      | running c r τ => rintro ⟨c', r', h3, _⟩; rw [h3]; exact .running ..
      | done x τ => intro h; rw [h]; exact .done ..
      | thrown τ => intro h; rw [h]; exact .thrown ..
      | stuck => intro h; rw [h]; exact .stuck
    · exact .inr ⟨d, by simp, y, τ, hck, fails_reaches h1, hzero τ h1.2, m, h2⟩
  · intro hp σ τ x hx ⟨k, c, r, hr⟩
    rcases G.forward (W := W) ho (hp d (by simp)) (fun σ => by rw [taken_jump]; simp) k σ (G.start hs) with ⟨m, h1, h2⟩ | ⟨k', _, m, τ, h1, h2⟩
    · unfold runFn at hr
      rw [hr] at h2
      obtain ⟨c', r', h3, h4⟩ := h2
      generalize hl : x :: r = l at h4
      have hl' := hl
      cases h4 with
      | other _ _ _ => exact .inl ⟨m, _, r, by unfold runFn; rw [h3, ← hl]⟩
      | tail _ => exact .inl ⟨m, _, r, by unfold runFn; rw [h3, ← hl]⟩
      | @head r0 _ =>
        cases r0 with
        | cons z r0 =>
          simp at hl
          exact .inl ⟨m, _, r0 ++ [f.next + 1], by unfold runFn; rw [h3, hl.1]; rfl⟩
        | nil =>
          simp at hl
          obtain ⟨rfl, rfl⟩ := hl
          have hm := run_succ m h3
          simp only [List.nil_append, run, G.jump ho] at hm
          cases ht : taken (jump y n e) τ with
          | none => rw [taken_jump] at ht; cases ht
          | some v =>
            rw [ht] at hm
            cases v with
            | false => exact .inl ⟨m + 1, n, r, by unfold runFn; simpa [run] using hm⟩
            | true =>
              refine .inr ⟨x, by simp, y, τ, hck, ⟨k, _, r, hr⟩, hzero τ ht, m + 2, ?_⟩
              have hm' : run W g (m + 1) g.entry (g.body g.entry) σ = .running e [f.next] τ := by simpa [run] using hm
              have := run_succ (m + 1) hm'
              unfold runFn
              rw [this]
              simp only [run, G.err]
    · exact .inr ⟨d, by simp, y, τ, hck, fails_reaches h1, hzero τ h1.2, m, h2⟩

/-- The other divisions are not touched. -/
theorem Guard.checks {f g : Fn} {d n e : Nat} {hd B : List Nat} {i : Insn} (hs : Shape f) (hg : Shape g) (hne : hd ≠ [])
    (G : Guard f (f.parent d) n e hd (d :: B) i g) {x : Nat} (hx : InBody f x) (hxd : x ≠ d) (y : Nat) : Checks g x y ↔ Checks f x y := by
  obtain ⟨c, hc, hxc⟩ := hx
  have hpx := hs.tidy.parent c hc x hxc
  have hlt := lt_of_body hs.tidy hc hxc
  unfold Checks
  rw [G.insn_old hlt, G.parent, if_neg (by omega), if_neg (by omega)]
  have hnd := hs.tidy.nodup _ G.inF
  rw [G.list] at hnd
  obtain ⟨a, hd', rfl⟩ := List.exists_cons_of_ne_nil hne
  by_cases hm : x ∈ d :: B
  · rw [if_pos hm, G.bodyN]
    have hpx' : f.parent x = f.parent d := hs.tidy.parent _ G.inF x (by rw [G.list]; exact List.mem_append_right _ hm)
    rw [hpx', G.list]
    have hax : a ≠ x := fun h => (List.nodup_append.1 hnd).2.2 a (by simp) x hm h
    simp [Ne.symm hxd, hax]
  · rw [if_neg hm, hpx, G.body c hc]
    split
    · rename_i h
      rw [h, G.list]
      simp
    · exact Iff.rfl

theorem Guard.noPhis {f g : Fn} {d n e : Nat} {hd B : List Nat} {i : Insn} (ho : GOk f (d :: B))
    (G : Guard f (f.parent d) n e hd (d :: B) i g) {x : Nat} (hx : InBody f x) (h : NoPhis f x) : NoPhis g x := by
  have hs := ho.shape
  obtain ⟨c, hc, hxc⟩ := hx
  have hpx := hs.tidy.parent c hc x hxc
  have hlt := lt_of_body hs.tidy hc hxc
  unfold NoPhis at h ⊢
  rw [hpx] at h
  rw [G.parent, if_neg (by omega), if_neg (by omega)]
  have hold : ∀ t ∈ f.succs c, phisOf g t = [] := fun t ht => by
    rw [G.phis ho ((hs.graph.succs c hc).2 t ht)]; exact h t ht
  by_cases hm : x ∈ d :: B
  · rw [if_pos hm, G.succs, if_neg (fun h => G.hbn h.symm), if_pos rfl]
    have hpx' : f.parent x = f.parent d := hs.tidy.parent _ G.inF x (by rw [G.list]; exact List.mem_append_right _ hm)
    rw [← hpx', hpx]
    exact hold
  · rw [if_neg hm, hpx, G.succs]
    split
    · intro t ht
      simp at ht
      rcases ht with rfl | rfl
      · exact (G.phisN ho).1
      · exact G.phisE.1
    · split
      · rename_i h1 h2; exact absurd (h2 ▸ hc) G.freshN
      · split
        · simp
        · exact hold

theorem checkAll_result {W : World} : ∀ (ds : List Nat) {f g : Fn}, Shape f → ds.Nodup → (∀ d ∈ ds, InBody f d ∧ (f.insn d).op = .div) →
    checkAll ds f = .ok g → Result W f ds g := by
  intro ds
  induction ds with
  | nil =>
    intro f g hs _ _ h
    cases h
    exact Result.refl W hs (by simp)
  | cons d ds ih =>
    intro f g hs hnd hin h
    simp only [checkAll] at h
    have hdl := hin d (List.mem_cons_self ..)
    have hlt : ∀ x ∈ d :: ds, x < f.next := fun x hx => hs.tidy.lt x (.inr (.inr (hin x hx).1))
    have hnd' := List.nodup_cons.1 hnd
    have hin' : ∀ x ∈ ds, InBody f x ∧ (f.insn x).op = .div := fun x hx => hin x (List.mem_cons_of_mem _ hx)
    cases hc : checkDiv f d with
    | err => rw [hc] at h; cases h
    | crit => rw [hc] at h; cases h
    | ub => rw [hc] at h; cases h
    | ok f1 =>
      rw [hc] at h
      dsimp only at h
      have hskip : (∀ y, ¬ Checks f d y) → f1 = f → Result W f (d :: ds) g := by
        intro hno he
        subst he
        exact Result.trans (Result.refl W hs (by intro x hx; rw [List.mem_singleton.1 hx]; exact hno)) (ih hs hnd'.2 hin' h) hlt
          (fun _ _ _ => Iff.rfl) (fun hp x hx => hp x (List.mem_cons_of_mem _ hx))
      have hdp : d ∈ f.body (f.parent d) ∧ f.parent d ∈ f.allBbs := by
        obtain ⟨c, hc, hdc⟩ := hdl.1
        rw [hs.tidy.parent c hc d hdc]; exact ⟨hdc, hc⟩
      unfold checkDiv at hc
      cases hv : ((f.insn d).vals[1]? : Option Val) with
      | none => rw [hv] at hc; cases hc
      | some v =>
        rw [hv] at hc
        cases v with
        | const k c ct b =>
          cases hc
          exact hskip (fun y hy => by have := hy.1; rw [hv] at this; cases this) rfl
        | undef =>
          cases hc
          exact hskip (fun y hy => by have := hy.1; rw [hv] at this; cases this) rfl
        | insn y =>
          dsimp only at hc
          cases hp : prevInsn f d with
          | none =>
            rw [hp] at hc
            cases hc
            exact hskip (fun y hy => hy.2 ((prev_none hdp.1).1 hp)) rfl
          | some p =>
            rw [hp] at hc
            dsimp only at hc
            obtain ⟨n, e, A, B, hl, G⟩ := addCheck_spec hs hdl.1 hp hc
            have hh : (f.body (f.parent d)).head? ≠ some d := fun hh => by
              rw [(prev_none hdp.1).2 hh] at hp; cases hp
            have R1 : Result W f [d] f1 := result_one hs hdl.1 hv hdl.2 hh G
            have ho : GOk f (d :: B) := ⟨hs, fun x hx => by cases hx; rw [hdl.2]; simp⟩
            refine Result.trans R1 (ih R1.shape hnd'.2 ?_ h) hlt ?_ ?_
            · intro x hx
              rw [R1.insn x (hlt x (List.mem_cons_of_mem _ hx))]
              refine ⟨?_, (hin' x hx).2⟩
              have := (G.live (x := x)).2 (.inl (.inr (.inr (hin' x hx).1)))
              rcases this with h | h | h
              · obtain ⟨c, hc, hxc⟩ := (hin' x hx).1
                exact absurd (h.trans G.sp) (hs.tidy.fixed c hc x hxc).1
              · obtain ⟨c, hc, hxc⟩ := (hin' x hx).1
                exact absurd (G.args ▸ h) (hs.tidy.fixed c hc x hxc).2
              · exact h
            · intro x hx y
              exact Guard.checks hs R1.shape (by simp) G (hin' x hx).1 (fun e => hnd'.1 (e ▸ hx)) y
            · intro hp x hx
              exact Guard.noPhis ho G (hin' x hx).1 (hp x (List.mem_cons_of_mem _ hx))

end Verif.DivZero
