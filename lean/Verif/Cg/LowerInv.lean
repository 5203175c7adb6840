import Verif.Cg.SpillTools
import Verif.Cg.Lower
import Verif.Loc.Recolor
/-!
# What the lowering of calls and arguments does to the instructions
-/
namespace Verif.Cg
open Verif Verif.IR Verif.Edit Verif.Loc
open Verif.Norm (VrPos Reg)

/-- An operand with its new name. -/
def renV (rn : Nat → Nat) : Val → Val
  | .insn y => .insn (rn y)
  | v => v

theorem sub_renV {rn : Nat → Nat} {x n : Nat} (hx : rn x = x) (hy : ∀ y, y ≠ x → rn y ≠ x) (v : Val) :
    sub x (.insn n) (renV rn v) = renV (upd rn x n) v := by
  cases v with
  | insn y =>
    show sub x (.insn n) (.insn (rn y)) = .insn (upd rn x n y)
    unfold sub
    by_cases e : y = x
    · subst e; rw [hx, if_pos rfl, upd_same]
    · rw [if_neg (fun h => hy y e (Val.insn.inj h)), upd_ne _ _ e]
  | const => rfl
  | undef => rfl

/-- The copies of the arguments `vs`, of which the first one is argument `i`. -/
def ArgsOk (g : Fn) (pos : Nat → VrPos) (rn : Nat → Nat) : Nat → List Val → List Nat → Prop
  | _, [], ns => ns = []
  | i, v :: vs, ns => ∃ n r, ns = n :: r ∧ g.insn n = mkAssign (renV rn v) ∧ pos n = ⟨true, Fin.ofNat 11 (i + 1), 0⟩ ∧ ArgsOk g pos rn (i + 1) vs r

theorem ArgsOk.imp {g g' : Fn} {pos pos' : Nat → VrPos} {rn rn' : Nat → Nat} : ∀ {vs : List Val} {i : Nat} {ns : List Nat}, ArgsOk g pos rn i vs ns →
    (∀ n ∈ ns, (∀ v, g.insn n = mkAssign (renV rn v) → g'.insn n = mkAssign (renV rn' v)) ∧ pos' n = pos n) → ArgsOk g' pos' rn' i vs ns
  | [], _, _, h, _ => h
  | v :: vs, i, ns, ⟨n, r, e, h1, h2, h3⟩, h => by
    subst e
    refine ⟨n, r, rfl, (h n List.mem_cons_self).1 v h1, (h n List.mem_cons_self).2.trans h2, ?_⟩
    exact ArgsOk.imp h3 (fun m hm => h m (List.mem_cons_of_mem _ hm))

theorem ArgsOk.mem {g : Fn} {pos : Nat → VrPos} {rn : Nat → Nat} : ∀ {vs : List Val} {i : Nat} {ns : List Nat}, ArgsOk g pos rn i vs ns →
    ∀ v ∈ vs, ∃ n ∈ ns, g.insn n = mkAssign (renV rn v)
  | v :: vs, i, ns, ⟨n, r, e, h1, _, h3⟩, w, hw => by
    subst e
    rcases List.mem_cons.1 hw with rfl | hw
    · exact ⟨n, List.mem_cons_self, h1⟩
    · obtain ⟨m, hm, e⟩ := ArgsOk.mem h3 w hw
      exact ⟨m, List.mem_cons_of_mem _ hm, e⟩

theorem ArgsOk.asg {g : Fn} {pos : Nat → VrPos} {rn : Nat → Nat} : ∀ {vs : List Val} {i : Nat} {ns : List Nat}, ArgsOk g pos rn i vs ns →
    ∀ n ∈ ns, ∃ v ∈ vs, g.insn n = mkAssign (renV rn v)
  | [], i, ns, h, n, hn => by cases h; cases hn
  | v :: vs, i, ns, ⟨n, r, e, h1, _, h3⟩, m, hm => by
    subst e
    rcases List.mem_cons.1 hm with rfl | hm
    · exact ⟨v, List.mem_cons_self, h1⟩
    · obtain ⟨w, hw, e⟩ := ArgsOk.asg h3 m hm
      exact ⟨w, List.mem_cons_of_mem _ hw, e⟩

theorem Grown.same {f g g' : Fn} {H N M T : Nat → List Nat} (h : Grown f g H N M T) (hs : Edit.Same g g') : Grown f g' H N M T :=
  h.patch hs.entry hs.succs hs.preds hs.allBbs hs.sp hs.args hs.next hs.body (hs.tidy h.tidy)

theorem upd_upd {α : Type} (N : Nat → α) (x : Nat) (a b : α) : upd (upd N x a) x b = upd N x b := by
  funext y
  unfold upd
  split <;> rfl

theorem code_body {f : Fn} {b x : Nat} (h : x ∈ codeOf f b) : x ∈ f.body b := by
  rw [← phisOf_append f b]; exact List.mem_append_right _ h

theorem UsersIn.removeUser {f : Fn} (h : UsersIn f) (v : Val) (x : Nat) : UsersIn (removeUser f v x) := by
  have hs := removeUser_same f v x
  intro y hy u hu
  unfold InBody
  rw [hs.allBbs, hs.body]
  rw [hs.live] at hy
  refine h y hy u ?_
  rw [← List.count_pos_iff, removeUser_count] at hu
  exact List.count_pos_iff.1 (by omega)

theorem UsersIn.replaceAll {f : Fn} {x n : Nat} (h : UsersIn f) (hr : (.insn n : Val) ≠ .insn x) (hx : Live f x) : UsersIn (replaceAll f x (.insn n)) := by
  have h3 := replaceAll_spec (f := f) hr
  intro y hy u hu
  unfold InBody
  rw [h3.allBbs, h3.body]
  rw [h3.live] at hy
  by_cases hm : u ∈ f.users x
  · exact h x hx u hm
  · by_cases e : y = x
    · rw [e, replaceAll_usersX hr] at hu; cases hu
    · refine h y hy u ?_
      rw [← List.count_pos_iff, ← h3.usersOut y u e (.inr hm), List.count_pos_iff]
      exact hu

/-- The loop over the arguments. -/
theorem argCopies_ok {f : Fn} (ht : Tidy f) {H M T : Nat → List Nat} {rn : Nat → Nat} {b x : Nat} (hb : b ∈ f.allBbs) (hx : x ∈ codeOf f b) :
    ∀ (vs : List Val) (i : Nat) (s : Cg) (N : Nat → List Nat), Grown f s.f H N M T → (s.f.insn x).op = .call →
      (∀ y, .insn y ∈ vs.map (renV rn) → Live s.f y) → Cover s.f (fun u => u = x) →
      ∃ t ns, argCopies x (vs.map (renV rn)) i s = .ok t ∧ Grown f t.f H (upd N x (N x ++ ns)) M T ∧ ArgsOk t.f t.pos rn i vs ns ∧
        Cover t.f (fun u => u = x) ∧ (∀ z, z < s.f.next → t.f.insn z = s.f.insn z ∧ t.pos z = s.pos z) ∧ s.f.next ≤ t.f.next ∧
        (∀ n ∈ ns, s.f.next ≤ n) ∧ (UsersIn s.f → UsersIn t.f) ∧
        (∀ z, t.pos z = s.pos z ∨ ∃ j, i ≤ j ∧ j < i + vs.length ∧ t.pos z = ⟨true, Fin.ofNat 11 (j + 1), 0⟩)
  | [], i, s, N, hg, _, _, hc => by
    refine ⟨s, [], rfl, ?_, rfl, hc, fun z _ => ⟨rfl, rfl⟩, Nat.le_refl _, by simp, fun h => h, fun _ => .inl rfl⟩
    have : upd N x (N x ++ []) = N := by
      funext y
      unfold upd
      split
      · rename_i e; rw [e, List.append_nil]
      · rfl
    rw [this]
    exact hg
  | v :: vs, i, s, N, hg, hop, hl, hc => by
    have hs := removeUser_same s.f (renV rn v) x
    have hg1 := hg.same hs
    have hl1 : ∀ y, .insn y ∈ operands (mkAssign (renV rn v)) → Live (removeUser s.f (renV rn v) x) y := by
      intro y hy
      rw [hs.live]
      refine hl y ?_
      have : (.insn y : Val) = renV rn v := by simpa [operands, mkAssign, raw] using hy
      rw [this]
      simp
    have hb1 : b ∈ (removeUser s.f (renV rn v) x).allBbs := by rw [hg1.allBbs]; exact hb
    obtain ⟨g, e, ha, hg2⟩ := hg1.front ht hb hx (by rw [hs.insn, hop]; simp) hl1
    have hc2 := (hc.removeUser (renV rn v) (x := x) rfl).added hg1.tidy ha hb1 hl1
    have hnx : s.f.next = (removeUser s.f (renV rn v) x).next := hs.next.symm
    have hxl : x < s.f.next := hg.tidy.lt x (hg.live (.inr (.inr ⟨b, hb, code_body hx⟩)))
    obtain ⟨t, ns, e2, h1, h2, h3, h4, h5, h6, h7, h8⟩ := argCopies_ok ht (rn := rn) hb hx vs (i + 1)
      ⟨g, upd s.pos s.f.next ⟨true, Fin.ofNat 11 (i + 1), 0⟩⟩ _ hg2
      (by show (g.insn x).op = _; rw [ha.insn, hs.next, upd_ne _ _ (by omega), hs.insn]; exact hop)
      (fun y hy => by
        show Live g y
        rw [ha.live hb1, hs.live]
        exact .inr (hl y (List.mem_cons_of_mem _ hy))) hc2
    dsimp only at h4 h5 h6
    rw [ha.next, ← hnx] at h4 h5 h6
    refine ⟨t, s.f.next :: ns, ?_, ?_, ⟨s.f.next, ns, rfl, ?_, ?_, h2⟩, h3, ?_, by omega, ?_, fun hu => h7 ((hu.removeUser _ _).added hg1.tidy ha hb1 hl1), fun z => ?_⟩
    · rw [List.map_cons, argCopies, e, Out.ok_bind]
      exact e2
    · rw [upd_upd, upd_same, ← hnx, List.append_assoc] at h1
      exact h1
    · rw [(h4 s.f.next (by omega)).1, ha.insn, ← hnx, upd_same]
    · rw [(h4 s.f.next (by omega)).2, upd_same]
    · intro z hz
      obtain ⟨q1, q2⟩ := h4 z (by omega)
      rw [q1, q2, ha.insn, ← hnx, upd_ne _ _ (by omega), upd_ne _ _ (by omega), hs.insn]
      exact ⟨rfl, rfl⟩
    · intro n hn
      rcases List.mem_cons.1 hn with rfl | hn
      · exact Nat.le_refl _
      · have := h6 n hn; omega
    · rcases h8 z with h9 | ⟨j, j1, j2, h9⟩
      · dsimp only at h9
        by_cases e : z = s.f.next
        · rw [e, upd_same] at h9
          exact .inr ⟨i, Nat.le_refl _, by simp, by rw [e]; exact h9⟩
        · rw [upd_ne _ _ e] at h9
          exact .inl h9
      · exact .inr ⟨j, by omega, by rw [List.length_cons]; omega, h9⟩

/-- `C` are the calls that have been lowered so far, `rn` the new names. -/
structure Core (f : Fn) (rg : Nat → Nat) (pos0 : Nat → VrPos) (C : List Nat) (s : Cg) (rn : Nat → Nat) (H N M : Nat → List Nat) : Prop where
  grown : Grown f s.f H N M (fun _ => [])
  cover : Cover s.f (fun _ => False)
  inC : ∀ y ∈ C, (f.insn y).op = .call ∧ ∃ b ∈ f.allBbs, y ∈ codeOf f b
  old : ∀ y, Live f y → y ∉ C → s.f.insn y = mapOps (renV rn) (f.insn y)
  done : ∀ y ∈ C, s.f.insn y = { f.insn y with vals := [] }
  copies : ∀ y ∈ C, ArgsOk s.f s.pos rn 0 (f.insn y).vals (N y)
  none : ∀ y, y ∉ C → N y = [] ∧ M y = []
  resM : ∀ y, ∀ n ∈ M y, s.f.insn n = mkAssign (.insn (rg 0)) ∧ s.pos n = noPos
  resH : ∀ n ∈ H f.entry, (∃ i, i < 5 ∧ s.f.insn n = mkAssign (.insn (rg (i + 1)))) ∧ s.pos n = noPos
  head : ∀ b, b ≠ f.entry → H b = []
  new : ∀ y, rn y = y ∨ f.next ≤ rn y
  posOld : ∀ y, y < f.next → s.pos y = pos0 y
  lt : ∀ y, y < f.next → rn y < s.f.next
  inj : ∀ y z, y < f.next → z < f.next → rn y = rn z → y = z
  users : UsersIn f → UsersIn s.f
  flat : ∀ z, s.pos z = pos0 z ∨ s.pos z = noPos ∨ ∃ y ∈ C, ∃ j, j < (f.insn y).vals.length ∧ s.pos z = ⟨true, Fin.ofNat 11 (j + 1), 0⟩

variable {f : Fn} {rg : Nat → Nat} {pos0 : Nat → VrPos} {C : List Nat} {s : Cg} {rn : Nat → Nat} {H N M : Nat → List Nat}

theorem flat_upd {pos : Nat → VrPos} {P : Nat → VrPos → Prop} {Q : VrPos → Prop} (h : ∀ z, P z (pos z) ∨ pos z = noPos ∨ Q (pos z)) {n : Nat} (z : Nat) :
    P z (upd pos n noPos z) ∨ upd pos n noPos z = noPos ∨ Q (upd pos n noPos z) := by
  unfold upd
  split
  · exact .inr (.inl rfl)
  · exact h z

/-- Nothing in `f` refers to `y`. -/
def Unref (f : Fn) (y : Nat) : Prop := ∀ u, Live f u → refs (f.insn u) y = 0

theorem Core.liveN (h : Core f rg pos0 C s rn H N M) {y n : Nat} (hy : y ∈ C) (hn : n ∈ N y ++ M y) : Live s.f n := by
  obtain ⟨-, b, hb, hyb⟩ := h.inC y hy
  obtain ⟨A, B, e⟩ := List.append_of_mem hyb
  refine .inr (.inr ⟨b, by rw [h.grown.allBbs]; exact hb, ?_⟩)
  rw [h.grown.at hb e]
  rcases List.mem_append.1 hn with hn | hn
  · simp [hn]
  · simp [hn]

theorem Core.liveH (h : Core f rg pos0 C s rn H N M) (he : f.entry ∈ f.allBbs) {n : Nat} (hn : n ∈ H f.entry) : Live s.f n := by
  refine .inr (.inr ⟨f.entry, by rw [h.grown.allBbs]; exact he, ?_⟩)
  rw [h.grown.body f.entry he]
  simp [hn]

theorem operands_call {i : Insn} (h : i.op = .call) : operands i = i.vals := by simp [operands, h, raw]

theorem Core.unref (h : Core f rg pos0 C s rn H N M) {x : Nat} (hx : rn x = x) (hu : s.f.users x = []) : Unref f x := by
  intro u hl
  rcases Nat.eq_zero_or_pos (refs (f.insn u) x) with h0 | h0
  · exact h0
  exfalso
  have h0 := refs_pos.1 h0
  by_cases huC : u ∈ C
  · rw [operands_call (h.inC u huC).1] at h0
    obtain ⟨n, hn, e⟩ := (h.copies u huC).mem _ h0
    have := h.cover x n (h.liveN huC (List.mem_append_left _ hn)) (fun e => e) (by
      rw [e, refs_pos]
      simp [operands, mkAssign, renV, hx])
    rw [hu] at this
    cases this
  · have := h.cover x u (h.grown.live hl) (fun e => e) (by
      rw [h.old u hl huC, refs_pos, operands_mapOps, List.mem_map]
      exact ⟨_, h0, by simp [renV, hx]⟩)
    rw [hu] at this
    cases this

theorem mapOps_assign (s : Val → Val) (v : Val) : mapOps s (mkAssign v) = mkAssign (s v) := by simp [mapOps, mkAssign, raw]

/-- The copies of the arguments of `x`, and `x` loses its arguments. -/
theorem Core.call (ht : Tidy f) (he : f.entry ∈ f.allBbs) (h : Core f rg pos0 C s rn H N M) {b x : Nat} (hb : b ∈ f.allBbs) (hx : x ∈ codeOf f b) (hop : (f.insn x).op = .call)
    (hxC : x ∉ C) : ∃ t N', argCopies x (s.f.insn x).vals 0 s = .ok t ∧
      Core f rg pos0 (x :: C) ⟨{ t.f with insn := upd t.f.insn x { t.f.insn x with vals := [] } }, t.pos⟩ rn H N' M := by
  have hxl : Live f x := .inr (.inr ⟨b, hb, code_body hx⟩)
  have hxn := ht.lt x hxl
  have hi := h.old x hxl hxC
  have hv : (s.f.insn x).vals = (f.insn x).vals.map (renV rn) := by rw [hi]; rfl
  obtain ⟨t, ns, e, h1, h2, h3, h4, h5, h6, h7, h8⟩ := argCopies_ok ht (rn := rn) hb hx (f.insn x).vals 0 s N h.grown (by rw [hi, mapOps_op]; exact hop)
    (fun y hy => by
      refine h.grown.tidy.closed x y (h.grown.live hxl) (refs_pos.2 ?_)
      rw [operands_call (by rw [hi, mapOps_op]; exact hop), hv]
      exact hy) (h.cover.mono (fun _ e => e.elim))
  have hsn : f.next ≤ s.f.next := h.grown.next
  have hti : t.f.insn x = mapOps (renV rn) (f.insn x) := by rw [(h4 x (by omega)).1, hi]
  have hcx : ({ t.f.insn x with vals := [] } : Insn) = { f.insn x with vals := [] } := by
    rw [hti]
    simp [mapOps, hop, raw]
  refine ⟨t, upd N x (N x ++ ns), by rw [hv]; exact e, ?_⟩
  have hNx : N x = [] := (h.none x hxC).1
  have hp : Patched t.f x { t.f with insn := upd t.f.insn x { t.f.insn x with vals := [] } } :=
    ⟨fun z hz => upd_ne _ _ hz, rfl, rfl, rfl, rfl, rfl, rfl⟩
  have hzero : ∀ y, refs (upd t.f.insn x { t.f.insn x with vals := [] } x) y = 0 := by
    intro y
    rw [upd_same, refs_eq, operands_call]
    · rfl
    · show (t.f.insn x).op = _
      rw [hti]; exact hop
  have htd : Tidy { t.f with insn := upd t.f.insn x { t.f.insn x with vals := [] } } := hp.tidy h1.tidy (fun _ y hy => by
    exact absurd (hzero y) (Nat.ne_of_gt hy))
  have hlt : ∀ y ∈ C, ∀ n ∈ N y ++ M y, n < s.f.next := fun y hy n hn => h.grown.tidy.lt n (h.liveN hy hn)
  have hkeep : ∀ z, z < s.f.next → z ≠ x → (upd t.f.insn x { t.f.insn x with vals := [] } z) = s.f.insn z ∧ t.pos z = s.pos z := by
    intro z hz hne
    rw [upd_ne _ _ hne]
    exact h4 z hz
  have hnew : ∀ y, ∀ n ∈ N y ++ M y, n ≠ x := by
    intro y n hn e
    have := h.grown.newI y n hn
    omega
  refine { grown := h1.patch rfl rfl rfl rfl rfl rfl rfl rfl htd, cover := ?_, inC := ?_, old := ?_, done := ?_, copies := ?_, none := ?_, resM := ?_, resH := ?_, head := h.head, new := h.new, posOld := ?_, lt := fun y hy => Nat.lt_of_lt_of_le (h.lt y hy) h5, inj := h.inj, users := fun hu => h7 (h.users hu), flat := ?_ }
  · intro y u hu _ hr
    rw [hp.live] at hu
    dsimp only at hr
    by_cases e : u = x
    · subst e
      exact absurd (hzero y) (Nat.ne_of_gt hr)
    · rw [upd_ne _ _ e] at hr
      exact h3 y u hu e hr
  · intro y hy
    rcases List.mem_cons.1 hy with rfl | hy
    · exact ⟨hop, b, hb, hx⟩
    · exact h.inC y hy
  · intro y hy hn
    rw [List.mem_cons, not_or] at hn
    have := ht.lt y hy
    dsimp only
    rw [(hkeep y (by omega) hn.1).1]
    exact h.old y hy hn.2
  · intro y hy
    dsimp only
    by_cases e : y = x
    · subst e
      rw [upd_same, hcx]
    · have hyC : y ∈ C := by simpa [e] using hy
      obtain ⟨-, c, hc, hyc⟩ := h.inC y hyC
      have := ht.lt y (.inr (.inr ⟨c, hc, code_body hyc⟩))
      rw [(hkeep y (by omega) e).1]
      exact h.done y hyC
  · intro y hy
    by_cases e : y = x
    · subst e
      rw [upd_same, hNx, List.nil_append]
      refine h2.imp (fun n hn => ⟨fun v hv => ?_, rfl⟩)
      have := h6 n hn
      dsimp only
      rw [upd_ne _ _ (by omega)]
      exact hv
    · have hyC : y ∈ C := by simpa [e] using hy
      rw [upd_ne _ _ e]
      refine (h.copies y hyC).imp (fun n hn => ?_)
      have h7 := hkeep n (hlt y hyC n (List.mem_append_left _ hn)) (hnew y n (List.mem_append_left _ hn))
      exact ⟨fun v hv => h7.1.trans hv, h7.2⟩
  · intro y hy
    rw [List.mem_cons, not_or] at hy
    rw [upd_ne _ _ hy.1]
    exact h.none y hy.2
  · intro y n hn
    have hyC : y ∈ C := Classical.byContradiction fun e => by rw [(h.none y e).2] at hn; cases hn
    obtain ⟨q1, q2⟩ := hkeep n (hlt y hyC n (List.mem_append_right _ hn)) (hnew y n (List.mem_append_right _ hn))
    dsimp only
    rw [q1, q2]
    exact h.resM y n hn
  · intro n hn
    have h7 := h.grown.newB f.entry n (List.mem_append_left _ hn)
    obtain ⟨q1, q2⟩ := hkeep n (h.grown.tidy.lt n (h.liveH he hn)) (by omega)
    dsimp only
    rw [q1, q2]
    exact h.resH n hn
  · intro y hy
    rw [(h4 y (by omega)).2]
    exact h.posOld y hy
  · intro z
    rcases h8 z with h9 | ⟨j, -, j2, h9⟩
    · dsimp only
      rw [h9]
      rcases h.flat z with h10 | h10 | ⟨y, hy, j, j1, h10⟩
      · exact .inl h10
      · exact .inr (.inl h10)
      · exact .inr (.inr ⟨y, List.mem_cons_of_mem _ hy, j, j1, h10⟩)
    · exact .inr (.inr ⟨x, List.mem_cons_self, j, by omega, h9⟩)

/-- The result of `x` is copied from r0. -/
theorem Core.result (ht : Tidy f) (he : f.entry ∈ f.allBbs) (hrg : ∀ i, i < 10 → Live f (rg i)) (h : Core f rg pos0 C s rn H N M) {b x : Nat} (hb : b ∈ f.allBbs)
    (hx : x ∈ codeOf f b) (hxC : x ∈ C) :
    ∃ g, createAt s.f (mkAssign (.insn (rg 0))) x .back = .ok g ∧ Core f rg pos0 C ⟨g, upd s.pos s.f.next noPos⟩ rn H N (upd M x (s.f.next :: M x)) ∧
      Live g s.f.next := by
  have hop := (h.inC x hxC).1
  have hl1 : ∀ y, .insn y ∈ operands (mkAssign (.insn (rg 0))) → Live s.f y := by
    intro y hy
    have : y = rg 0 := by simpa [operands, mkAssign, raw] using hy
    rw [this]
    exact h.grown.live (hrg 0 (by omega))
  have hbs : b ∈ s.f.allBbs := by rw [h.grown.allBbs]; exact hb
  obtain ⟨g, e, ha, hg⟩ := h.grown.back ht hb hx (by rw [h.done x hxC]; show (f.insn x).op ≠ _; rw [hop]; simp) hl1
  have hsn : f.next ≤ s.f.next := h.grown.next
  have hkeep : ∀ z, z < s.f.next → g.insn z = s.f.insn z ∧ upd s.pos s.f.next noPos z = s.pos z := by
    intro z hz
    rw [ha.insn, upd_ne _ _ (by omega), upd_ne _ _ (by omega)]
    exact ⟨rfl, rfl⟩
  have hlt : ∀ y ∈ C, ∀ n ∈ N y ++ M y, n < s.f.next := fun y hy n hn => h.grown.tidy.lt n (h.liveN hy hn)
  have hxn : ∀ y ∈ C, y < s.f.next := by
    intro y hy
    obtain ⟨-, c, hc, hyc⟩ := h.inC y hy
    have := ht.lt y (.inr (.inr ⟨c, hc, code_body hyc⟩))
    omega
  refine ⟨g, e, { grown := hg, cover := h.cover.added h.grown.tidy ha hbs hl1, inC := h.inC, old := ?_, done := ?_, copies := ?_, none := ?_, resM := ?_, resH := ?_, head := h.head, new := h.new, posOld := ?_, lt := fun y hy => by have := h.lt y hy; dsimp only; rw [ha.next]; omega, inj := h.inj, users := fun hu => (h.users hu).added h.grown.tidy ha hbs hl1, flat := fun z => flat_upd (P := fun z q => q = pos0 z) (Q := fun q => ∃ y ∈ C, ∃ j, j < (f.insn y).vals.length ∧ q = ⟨true, Fin.ofNat 11 (j + 1), 0⟩) h.flat z }, (ha.live hbs).2 (.inl rfl)⟩
  · intro y hy hn
    have := ht.lt y hy
    dsimp only
    rw [(hkeep y (by omega)).1]
    exact h.old y hy hn
  · intro y hy
    dsimp only
    rw [(hkeep y (hxn y hy)).1]
    exact h.done y hy
  · intro y hy
    refine (h.copies y hy).imp (fun n hn => ?_)
    have h7 := hkeep n (hlt y hy n (List.mem_append_left _ hn))
    exact ⟨fun v hv => h7.1.trans hv, h7.2⟩
  · intro y hy
    rw [upd_ne _ _ (fun (e : y = x) => hy (e ▸ hxC))]
    exact h.none y hy
  · intro y n hn
    by_cases ey : y = x
    · subst ey
      rw [upd_same] at hn
      rcases List.mem_cons.1 hn with rfl | hn
      · dsimp only
        rw [ha.insn, upd_same, upd_same]
        exact ⟨rfl, rfl⟩
      · dsimp only
        rw [(hkeep n (hlt y hxC n (List.mem_append_right _ hn))).1, (hkeep n (hlt y hxC n (List.mem_append_right _ hn))).2]
        exact h.resM y n hn
    · rw [upd_ne _ _ ey] at hn
      have hyC : y ∈ C := Classical.byContradiction fun e => by rw [(h.none y e).2] at hn; cases hn
      dsimp only
      rw [(hkeep n (hlt y hyC n (List.mem_append_right _ hn))).1, (hkeep n (hlt y hyC n (List.mem_append_right _ hn))).2]
      exact h.resM y n hn
  · intro n hn
    have := h.grown.tidy.lt n (h.liveH he hn)
    dsimp only
    rw [(hkeep n this).1, (hkeep n this).2]
    exact h.resH n hn
  · intro y hy
    dsimp only
    rw [(hkeep y (by omega)).2]
    exact h.posOld y hy

/-- An argument is copied from its register. -/
theorem Core.arg (ht : Tidy f) (he : f.entry ∈ f.allBbs) (hrg : ∀ i, i < 10 → Live f (rg i)) (h : Core f rg pos0 C s rn H N M) {i : Nat} (hi : i < 5) :
    let g := createBb s.f (mkAssign (.insn (rg (i + 1)))) s.f.entry .frontAfterPhi
    Core f rg pos0 C ⟨g, upd s.pos s.f.next noPos⟩ rn (upd H f.entry (s.f.next :: H f.entry)) N M ∧ Live g s.f.next ∧
      g.insn s.f.next = mkAssign (.insn (rg (i + 1))) ∧ ∀ z, z < s.f.next → g.insn z = s.f.insn z := by
  have hl1 : ∀ y, .insn y ∈ operands (mkAssign (.insn (rg (i + 1)))) → Live s.f y := by
    intro y hy
    have : y = rg (i + 1) := by simpa [operands, mkAssign, raw] using hy
    rw [this]
    exact h.grown.live (hrg (i + 1) (by omega))
  have hen := h.grown.entry
  have hbs : s.f.entry ∈ s.f.allBbs := by rw [h.grown.allBbs, hen]; exact he
  have ha := added_createBb s.f (mkAssign (.insn (rg (i + 1)))) s.f.entry .frontAfterPhi
  have hsn : f.next ≤ s.f.next := h.grown.next
  have hop : ∀ x ∈ f.body f.entry, (s.f.insn x).op = (f.insn x).op := by
    intro x hx
    by_cases hxC : x ∈ C
    · rw [h.done x hxC]
    · rw [h.old x (.inr (.inr ⟨_, he, hx⟩)) hxC, mapOps_op]
  have hNx : ∀ x, ∀ n ∈ N x, (s.f.insn n).op ≠ .phi := by
    intro x n hn
    have hxC : x ∈ C := Classical.byContradiction fun e => by rw [(h.none x e).1] at hn; cases hn
    obtain ⟨v, _, e⟩ := (h.copies x hxC).asg n hn
    rw [e]
    simp [mkAssign]
  have hg : Grown f (createBb s.f (mkAssign (.insn (rg (i + 1)))) s.f.entry .frontAfterPhi) (upd H f.entry (s.f.next :: H f.entry)) N M (fun _ => []) := by
    rw [hen]
    refine h.grown.afterPhi he hop (fun n hn => ?_) (fun x _ => hNx x) (by simp) hl1
    obtain ⟨⟨j, _, e⟩, _⟩ := h.resH n hn
    rw [e]
    simp [mkAssign]
  have hkeep : ∀ z, z < s.f.next → (createBb s.f (mkAssign (.insn (rg (i + 1)))) s.f.entry .frontAfterPhi).insn z = s.f.insn z ∧ upd s.pos s.f.next noPos z = s.pos z := by
    intro z hz
    rw [ha.insn, upd_ne _ _ (by omega), upd_ne _ _ (by omega)]
    exact ⟨rfl, rfl⟩
  have hnew : (createBb s.f (mkAssign (.insn (rg (i + 1)))) s.f.entry .frontAfterPhi).insn s.f.next = mkAssign (.insn (rg (i + 1))) := by
    rw [ha.insn, upd_same]
  have hlt : ∀ y ∈ C, ∀ n ∈ N y ++ M y, n < s.f.next := fun y hy n hn => h.grown.tidy.lt n (h.liveN hy hn)
  have hxn : ∀ y ∈ C, y < s.f.next := by
    intro y hy
    obtain ⟨-, c, hc, hyc⟩ := h.inC y hy
    have := ht.lt y (.inr (.inr ⟨c, hc, code_body hyc⟩))
    omega
  refine ⟨{ grown := hg, cover := h.cover.added h.grown.tidy ha hbs hl1, inC := h.inC, old := ?_, done := ?_, copies := ?_, none := h.none, resM := ?_, resH := ?_, head := ?_, new := h.new, posOld := ?_, lt := fun y hy => by have := h.lt y hy; dsimp only; rw [ha.next]; omega, inj := h.inj, users := fun hu => (h.users hu).added h.grown.tidy ha hbs hl1, flat := fun z => flat_upd (P := fun z q => q = pos0 z) (Q := fun q => ∃ y ∈ C, ∃ j, j < (f.insn y).vals.length ∧ q = ⟨true, Fin.ofNat 11 (j + 1), 0⟩) h.flat z }, (ha.live hbs).2 (.inl rfl), hnew, fun z hz => (hkeep z hz).1⟩
  · intro y hy hn
    have := ht.lt y hy
    dsimp only
    rw [(hkeep y (by omega)).1]
    exact h.old y hy hn
  · intro y hy
    dsimp only
    rw [(hkeep y (hxn y hy)).1]
    exact h.done y hy
  · intro y hy
    refine (h.copies y hy).imp (fun n hn => ?_)
    have h7 := hkeep n (hlt y hy n (List.mem_append_left _ hn))
    exact ⟨fun v hv => h7.1.trans hv, h7.2⟩
  · intro y n hn
    have hyC : y ∈ C := Classical.byContradiction fun e => by rw [(h.none y e).2] at hn; cases hn
    dsimp only
    rw [(hkeep n (hlt y hyC n (List.mem_append_right _ hn))).1, (hkeep n (hlt y hyC n (List.mem_append_right _ hn))).2]
    exact h.resM y n hn
  · intro n hn
    rw [upd_same] at hn
    rcases List.mem_cons.1 hn with rfl | hn
    · exact ⟨⟨i, hi, hnew⟩, upd_same ..⟩
    · have := h.grown.tidy.lt n (h.liveH he hn)
      dsimp only
      rw [(hkeep n this).1, (hkeep n this).2]
      exact h.resH n hn
  · intro b hb
    rw [upd_ne _ _ hb]
    exact h.head b hb
  · intro y hy
    dsimp only
    rw [(hkeep y (by omega)).2]
    exact h.posOld y hy

/-- All uses of `x` are replaced by uses of `n`. -/
theorem Core.replace (he : f.entry ∈ f.allBbs) (h : Core f rg pos0 C s rn H N M) {x n : Nat} (hx : x < f.next) (hxl : Live f x) (hn : f.next ≤ n) (hnl : Live s.f n)
    (hnf : ∀ y, y < f.next → rn y ≠ n) (hrx : rn x = x) (hrg : ∀ i, rg i ≠ x) :
    Core f rg pos0 C ⟨replaceAll s.f x (.insn n), s.pos⟩ (upd rn x n) H N M ∧
      ∀ m, Live s.f m → ∀ i, s.f.insn m = mkAssign (.insn (rg i)) → (replaceAll s.f x (.insn n)).insn m = mkAssign (.insn (rg i)) := by
  have hr : (.insn n : Val) ≠ .insn x := fun e => by cases e; omega
  have h3 := replaceAll_spec (f := s.f) hr
  have hins : ∀ u, Live s.f u → (replaceAll s.f x (.insn n)).insn u = mapOps (sub x (.insn n)) (s.f.insn u) :=
    fun u hu => replaceAll_insn h.cover hr hu (fun e => e)
  have hv : ∀ v, sub x (.insn n) (renV rn v) = renV (upd rn x n) v := sub_renV hrx (fun y hy e => by
    rcases h.new y with h1 | h1
    · exact hy (h1.symm.trans e)
    · omega)
  have hre : ∀ m, Live s.f m → ∀ i, s.f.insn m = mkAssign (.insn (rg i)) → (replaceAll s.f x (.insn n)).insn m = mkAssign (.insn (rg i)) := by
    intro m hm i e
    rw [hins m hm, e, mapOps_assign]
    unfold sub
    rw [if_neg (fun e => hrg i (Val.insn.inj e))]
  refine ⟨{ grown := h.grown.patch h3.entry h3.succs h3.preds h3.allBbs h3.sp h3.args h3.next h3.body (h3.tidy h.grown.tidy hnl), cover := h.cover.replaceAll hr, inC := h.inC, old := ?_, done := ?_, copies := ?_, none := h.none, resM := ?_, resH := ?_, head := h.head, new := ?_, posOld := h.posOld, lt := ?_, inj := ?_, users := fun hu => (h.users hu).replaceAll hr (h.grown.live hxl), flat := h.flat }, hre⟩
  · intro y hy hn
    dsimp only
    rw [hins y (h.grown.live hy), h.old y hy hn, mapOps_comp]
    congr 1
    funext v
    exact hv v
  · intro y hy
    obtain ⟨hop, c, hc, hyc⟩ := h.inC y hy
    dsimp only
    rw [hins y (h.grown.live (.inr (.inr ⟨c, hc, code_body hyc⟩))), h.done y hy]
    simp [mapOps, hop, raw]
  · intro y hy
    refine (h.copies y hy).imp (fun m hm => ⟨fun v hmv => ?_, rfl⟩)
    dsimp only
    rw [hins m (h.liveN hy (List.mem_append_left _ hm)), hmv, mapOps_assign, hv]
  · intro y m hm
    have hyC : y ∈ C := Classical.byContradiction fun e => by rw [(h.none y e).2] at hm; cases hm
    exact ⟨hre m (h.liveN hyC (List.mem_append_right _ hm)) 0 (h.resM y m hm).1, (h.resM y m hm).2⟩
  · intro m hm
    obtain ⟨⟨i, hi, e⟩, hp⟩ := h.resH m hm
    exact ⟨⟨i, hi, hre m (h.liveH he hm) (i + 1) e⟩, hp⟩
  · intro y
    by_cases e : y = x
    · subst e
      rw [upd_same]
      exact .inr hn
    · rw [upd_ne _ _ e]
      exact h.new y
  · intro y hy
    dsimp only
    rw [h3.next]
    by_cases e : y = x
    · subst e
      rw [upd_same]
      exact h.grown.tidy.lt n hnl
    · rw [upd_ne _ _ e]
      exact h.lt y hy
  · intro y z hy hz e
    by_cases ey : y = x <;> by_cases ez : z = x
    · rw [ey, ez]
    · rw [ey, upd_same, upd_ne _ _ ez] at e
      exact absurd e.symm (hnf z hz)
    · rw [ez, upd_same, upd_ne _ _ ey] at e
      exact absurd e (hnf y hy)
    · rw [upd_ne _ _ ey, upd_ne _ _ ez] at e
      exact h.inj y z hy hz e

/-- `C` are the calls, `A` the arguments (with their numbers) that have been lowered so far. -/
structure Low (f : Fn) (rg : Nat → Nat) (pos0 : Nat → VrPos) (C : List Nat) (A : List (Nat × Nat)) (s : Cg) (rn : Nat → Nat) (H N M : Nat → List Nat) : Prop where
  core : Core f rg pos0 C s rn H N M
  rnC : ∀ y ∈ C, (M y = [] ∧ rn y = y ∧ Unref f y) ∨ M y = [rn y]
  rnA : ∀ o ∈ A, (rn o.1 = o.1 ∧ Unref f o.1) ∨ (rn o.1 ∈ H f.entry ∧ s.f.insn (rn o.1) = mkAssign (.insn (rg (o.2 + 1))))
  rest : ∀ y, y ∉ C → y ∉ A.map (·.1) → rn y = y

theorem low_call (ht : Tidy f) (he : f.entry ∈ f.allBbs) (hrg : ∀ i, i < 10 → Live f (rg i)) (hrb : ∀ i, ∀ b ∈ f.allBbs, rg i ∉ f.body b)
    (h : Low f rg pos0 C [] s rn H N M) {b x : Nat} (hb : b ∈ f.allBbs)
    (hx : x ∈ codeOf f b) (hop : (f.insn x).op = .call) (hxC : x ∉ C) :
    ∃ t rn' N' M', lowerCall rg x s = .ok t ∧ Low f rg pos0 (x :: C) [] t rn' H N' M' := by
  obtain ⟨t, N', e, hc⟩ := h.core.call ht he hb hx hop hxC
  have hrx : rn x = x := h.rest x hxC (by simp)
  have hMx : M x = [] := (h.core.none x hxC).2
  have hxn := ht.lt x (.inr (.inr ⟨b, hb, code_body hx⟩))
  unfold lowerCall
  rw [e, Out.ok_bind]
  dsimp only
  generalize hg : ({ t.f with insn := upd t.f.insn x { t.f.insn x with vals := [] } } : Fn) = g at hc ⊢
  split
  · rename_i hu
    refine ⟨_, rn, N', M, rfl, hc, ?_, by simp, ?_⟩
    · intro y hy
      rcases List.mem_cons.1 hy with rfl | hy
      · exact .inl ⟨hMx, hrx, hc.unref hrx (by subst hg; exact hu)⟩
      · exact h.rnC y hy
    · intro y hy _
      rw [List.mem_cons, not_or] at hy
      exact h.rest y hy.2 (by simp)
  · obtain ⟨k, e2, hc2, hnl⟩ := hc.result ht he hrg hb hx List.mem_cons_self
    dsimp only at e2 hc2 hnl
    have hgn : f.next ≤ g.next := hc.grown.next
    obtain ⟨hc3, _⟩ := hc2.replace he hxn (.inr (.inr ⟨b, hb, code_body hx⟩)) hgn hnl (fun y hy e => by have := hc.lt y hy; dsimp only at this; omega) hrx (fun i e => hrb i b hb (e ▸ code_body hx))
    have hgn : t.f.next = g.next := by subst hg; rfl
    rw [e2, Out.ok_bind, hgn]
    refine ⟨_, _, _, _, rfl, hc3, ?_, by simp, ?_⟩
    · intro y hy
      by_cases ey : y = x
      · subst ey
        right
        rw [upd_same, upd_same, hMx]
      · have hyC : y ∈ C := by simpa [ey] using hy
        rw [upd_ne _ _ ey, upd_ne _ _ ey]
        exact h.rnC y hyC
    · intro y hy _
      rw [List.mem_cons, not_or] at hy
      rw [upd_ne _ _ hy.1]
      exact h.rest y hy.2 (by simp)

theorem low_calls (ht : Tidy f) (he : f.entry ∈ f.allBbs) (hrg : ∀ i, i < 10 → Live f (rg i)) (hrb : ∀ i, ∀ b ∈ f.allBbs, rg i ∉ f.body b) :
    ∀ (xs : List Nat) {C : List Nat} {s : Cg} {rn : Nat → Nat} {N M : Nat → List Nat}, Low f rg pos0 C [] s rn H N M →
      (∀ x ∈ xs, (f.insn x).op = .call ∧ ∃ b ∈ f.allBbs, x ∈ codeOf f b) → xs.Nodup → (∀ x ∈ xs, x ∉ C) →
      ∃ t C' rn' N' M', lowerCalls rg xs s = .ok t ∧ Low f rg pos0 C' [] t rn' H N' M' ∧ ∀ y, y ∈ C' ↔ y ∈ C ∨ y ∈ xs
  | [], C, s, rn, N, M, h, _, _, _ => ⟨s, C, rn, N, M, rfl, h, by simp⟩
  | x :: xs, C, s, rn, N, M, h, hx, hn, hC => by
    obtain ⟨hop, b, hb, hxb⟩ := hx x List.mem_cons_self
    rw [List.nodup_cons] at hn
    obtain ⟨t, rn', N', M', e, h1⟩ := low_call ht he hrg hrb h hb hxb hop (hC x List.mem_cons_self)
    obtain ⟨t2, C2, rn2, N2, M2, e2, h2, h3⟩ := low_calls ht he hrg hrb xs h1 (fun y hy => hx y (List.mem_cons_of_mem _ hy)) hn.2 (fun y hy hm => by
      rcases List.mem_cons.1 hm with rfl | hm
      · exact hn.1 hy
      · exact hC y (List.mem_cons_of_mem _ hy) hm)
    refine ⟨t2, C2, rn2, N2, M2, ?_, h2, fun y => ?_⟩
    · rw [lowerCalls, e, Out.ok_bind]
      exact e2
    · rw [h3 y]
      simp only [List.mem_cons]
      constructor
      · rintro ((h | h) | h)
        · exact .inr (.inl h)
        · exact .inl h
        · exact .inr (.inr h)
      · rintro (h | h | h)
        · exact .inl (.inr h)
        · exact .inl (.inl h)
        · exact .inr h

theorem low_arg (ht : Tidy f) (he : f.entry ∈ f.allBbs) (hrg : ∀ i, i < 10 → Live f (rg i)) {A : List (Nat × Nat)}
    (h : Low f rg pos0 C A s rn H N M) {o : Nat × Nat} (ho : Live f o.1) (hoC : o.1 ∉ C) (hoA : o.1 ∉ A.map (·.1)) (ho5 : o.2 < 5) (hro : ∀ i, rg i ≠ o.1) :
    ∃ rn' H', Low f rg pos0 C (o :: A) (lowerArg rg s o) rn' H' N M := by
  have hrx : rn o.1 = o.1 := h.rest _ hoC hoA
  unfold lowerArg
  split
  · rename_i hu
    refine ⟨rn, H, h.core, h.rnC, ?_, ?_⟩
    · intro p hp
      rcases List.mem_cons.1 hp with rfl | hp
      · exact .inl ⟨hrx, h.core.unref hrx hu⟩
      · exact h.rnA p hp
    · intro y hy hA
      rw [List.map_cons, List.mem_cons, not_or] at hA
      exact h.rest y hy hA.2
  · have hsn : f.next ≤ s.f.next := h.core.grown.next
    obtain ⟨hc1, hnl, hnew, hkeep⟩ := h.core.arg ht he hrg ho5
    obtain ⟨hc2, hre⟩ := hc1.replace he (ht.lt _ ho) ho hsn hnl (fun y hy e => by have := h.core.lt y hy; omega) hrx hro
    dsimp only at hc2 hre ⊢
    refine ⟨_, _, hc2, ?_, ?_, ?_⟩
    · intro y hy
      have : y ≠ o.1 := fun e => hoC (e ▸ hy)
      rw [upd_ne _ _ this]
      exact h.rnC y hy
    · intro p hp
      rcases List.mem_cons.1 hp with rfl | hp
      · right
        rw [upd_same, upd_same]
        exact ⟨by simp, hre _ hnl _ hnew⟩
      · have hpo : p.1 ≠ o.1 := fun e => hoA (e ▸ List.mem_map.2 ⟨p, hp, rfl⟩)
        rw [upd_ne _ _ hpo, upd_same]
        rcases h.rnA p hp with h1 | ⟨h1, h2⟩
        · exact .inl h1
        · right
          have hlt := h.core.grown.tidy.lt _ (h.core.liveH he h1)
          refine ⟨List.mem_cons_of_mem _ h1, hre _ ?_ _ ((hkeep _ hlt).trans h2)⟩
          exact hc1.liveH he (by rw [upd_same]; exact List.mem_cons_of_mem _ h1)
    · intro y hy hA
      rw [List.map_cons, List.mem_cons, not_or] at hA
      rw [upd_ne _ _ hA.1]
      exact h.rest y hy hA.2

theorem low_args (ht : Tidy f) (he : f.entry ∈ f.allBbs) (hrg : ∀ i, i < 10 → Live f (rg i)) :
    ∀ (os : List (Nat × Nat)) {A : List (Nat × Nat)} {s : Cg} {rn : Nat → Nat} {H : Nat → List Nat}, Low f rg pos0 C A s rn H N M →
      (∀ o ∈ os, Live f o.1 ∧ o.1 ∉ C ∧ o.2 < 5 ∧ ∀ i, rg i ≠ o.1) → (os.map (·.1)).Nodup → (∀ o ∈ os, o.1 ∉ A.map (·.1)) →
      ∃ A' rn' H', Low f rg pos0 C A' (os.foldl (lowerArg rg) s) rn' H' N M ∧ ∀ o, o ∈ A' ↔ o ∈ A ∨ o ∈ os
  | [], A, s, rn, H, h, _, _, _ => ⟨A, rn, H, h, by simp⟩
  | o :: os, A, s, rn, H, h, ho, hn, hA => by
    obtain ⟨h1, h2, h3, h4⟩ := ho o List.mem_cons_self
    rw [List.map_cons, List.nodup_cons] at hn
    obtain ⟨rn', H', h5⟩ := low_arg ht he hrg h h1 h2 (hA o List.mem_cons_self) h3 h4
    obtain ⟨A2, rn2, H2, h6, h7⟩ := low_args ht he hrg os h5 (fun p hp => ho p (List.mem_cons_of_mem _ hp)) hn.2 (fun p hp hm => by
      rw [List.map_cons, List.mem_cons] at hm
      rcases hm with e | hm
      · exact hn.1 (e ▸ List.mem_map.2 ⟨p, hp, rfl⟩)
      · exact hA p (List.mem_cons_of_mem _ hp) hm)
    refine ⟨A2, rn2, H2, h6, fun p => ?_⟩
    rw [h7 p]
    simp only [List.mem_cons]
    constructor
    · rintro ((h | h) | h)
      · exact .inr (.inl h)
      · exact .inl h
      · exact .inr (.inr h)
    · rintro (h | h | h)
      · exact .inl (.inr h)
      · exact .inl (.inl h)
      · exact .inr h

theorem renV_id : renV (fun y => y) = id := by funext v; cases v <;> rfl

theorem low_start (ht : Tidy f) (hc : Cover f (fun _ => False)) (pos0 : Nat → VrPos) :
    Low f rg pos0 [] [] ⟨f, pos0⟩ (fun y => y) (fun _ => []) (fun _ => []) (fun _ => []) := by
  refine ⟨{ grown := Grown.start ht, cover := hc, inC := by simp, old := ?_, done := by simp, copies := by simp, none := by simp, resM := by simp, resH := by simp, head := by simp, new := by simp, posOld := fun y _ => rfl, lt := fun y hy => hy, inj := fun y z _ _ e => e, users := fun h => h, flat := fun _ => .inl rfl }, by simp, by simp, by simp⟩
  intro y _ _
  rw [renV_id]
  exact (Loc.mapOps_id _).symm

end Verif.Cg
