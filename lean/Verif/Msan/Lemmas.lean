import Verif.Msan.Model
import Verif.Spec.Msan
import Verif.Cg.Grow
/-!
# What the stack sanitizer adds
-/
namespace Verif.Msan
open Verif Verif.IR Verif.Edit Verif.Cg Verif.Loc

theorem isSp_succ (f : Fn) (k x : Nat) : isSp f (k + 1) x =
    if x = f.sp then .ok true
    else if (f.insn x).op.binAlu then
      match (f.insn x).vals with
      | [v, w] =>
        match sub (isSp f k) v with
        | .ok true => .ok true
        | .ok false => sub (isSp f k) w
        | .err => .err
        | .crit => .crit
        | .ub => .ub
      | _ => .ub
    else .ok false := by
  rfl

theorem isSp_spec {f : Fn} : ∀ (k x : Nat) {t : Bool}, isSp f k x = .ok t → (t = true ↔ FromSp f x)
  | 0, x, t, h => by simp [isSp] at h
  | k + 1, x, t, h => by
    have hs : ∀ v {t : Bool}, sub (isSp f k) v = .ok t → (t = true ↔ ∃ y, v = .insn y ∧ FromSp f y) := by
      intro v t h
      cases v with
      | insn y =>
        rw [sub] at h
        rw [isSp_spec k y h]
        exact ⟨fun h => ⟨y, rfl, h⟩, fun ⟨z, e, h⟩ => by cases e; exact h⟩
      | const => rw [sub] at h; cases h; simp; intro x h; cases h
      | undef => rw [sub] at h; cases h; simp; intro x h; cases h
    rw [isSp_succ] at h
    split at h
    · rename_i e
      cases h
      simp only [true_iff]
      rw [e]; exact .sp
    · rename_i e
      split at h
      · rename_i hb
        split at h
        · rename_i v w hv
          have hx : FromSp f x ↔ (∃ y, v = .insn y ∧ FromSp f y) ∨ ∃ y, w = .insn y ∧ FromSp f y := by
            constructor
            · intro hf
              cases hf with
              | sp => exact absurd rfl e
              | arith h1 h2 h3 h4 =>
                rename_i y v' w'
                rw [hv] at h2
                injection h2 with h2 h5
                injection h5 with h5 _
                subst h2 h5
                simp only [List.mem_cons, List.not_mem_nil, or_false] at h3
                rcases h3 with h3 | h3
                · exact .inl ⟨y, h3.symm, h4⟩
                · exact .inr ⟨y, h3.symm, h4⟩
            · rintro (⟨y, e1, h1⟩ | ⟨y, e1, h1⟩)
              · exact .arith hb hv (by rw [e1]; simp) h1
              · exact .arith hb hv (by rw [e1]; simp) h1
          rw [hx]
          split at h
          · rename_i h1
            cases h
            have := (hs v h1).1 rfl
            simp [this]
          · rename_i h1
            have h2 := mt (hs v h1).2 (by simp)
            rw [hs w h]
            simp only [h2, false_or]
          · cases h
          · cases h
          · cases h
        · cases h
      · rename_i hb
        cases h
        simp only [Bool.false_eq_true, false_iff]
        intro hf
        cases hf with
        | sp => exact e rfl
        | arith h1 => exact hb h1

/-- If arithmetic goes down in some order, the search ends. -/
theorem isSp_ok {f : Fn} (rk : Nat → Nat) (h2 : ∀ x, (f.insn x).op.binAlu = true → ∃ v w, (f.insn x).vals = [v, w])
    (hr : ∀ x y, (f.insn x).op.binAlu = true → .insn y ∈ (f.insn x).vals → rk y < rk x) : ∀ (k x : Nat), rk x < k → ∃ t, isSp f k x = .ok t
  | 0, x, h => by omega
  | k + 1, x, h => by
    rw [isSp_succ]
    split
    · exact ⟨_, rfl⟩
    · split
      · rename_i hb
        obtain ⟨v, w, hv⟩ := h2 x hb
        have hs : ∀ u ∈ [v, w], ∃ t, sub (isSp f k) u = .ok t := by
          intro u hu
          cases u with
          | insn y =>
            rw [sub]
            have := hr x y hb (by rw [hv]; exact hu)
            exact isSp_ok rk h2 hr k y (by omega)
          | const => exact ⟨_, rfl⟩
          | undef => exact ⟨_, rfl⟩
        rw [hv]
        dsimp only
        obtain ⟨t, ht⟩ := hs v (by simp)
        obtain ⟨t', ht'⟩ := hs w (by simp)
        rw [ht, ht']
        cases t
        · exact ⟨_, rfl⟩
        · exact ⟨_, rfl⟩
      · exact ⟨_, rfl⟩

theorem isSp_congr {f g : Fn} (ht : Tidy f) (hsp : g.sp = f.sp) (hi : ∀ x, Live f x → g.insn x = f.insn x) : ∀ (k x : Nat), Live f x → isSp g k x = isSp f k x
  | 0, _, _ => rfl
  | k + 1, x, hx => by
    have hs : ∀ u ∈ (f.insn x).vals, sub (isSp g k) u = sub (isSp f k) u := by
      intro u hu
      cases u with
      | insn y =>
        rw [sub, sub]
        exact isSp_congr ht hsp hi k y (ht.closed x y hx (refs_pos.2 (by unfold operands; simp [hu])))
      | const => rfl
      | undef => rfl
    rw [isSp_succ, isSp_succ, hsp, hi x hx]
    rcases hv : (f.insn x).vals with _ | ⟨v, _ | ⟨w, _ | ⟨u, r⟩⟩⟩
    · rfl
    · rfl
    · dsimp only
      rw [hs v (by rw [hv]; simp), hs w (by rw [hv]; simp)]
    · rfl

theorem onSp_spec {f : Fn} {k x : Nat} {t : Bool} (hr : (f.insn x).op = .loadraw ∨ (f.insn x).op = .storeraw) (h : onSp k f x = .ok t) :
    t = true ↔ Tracked f x := by
  unfold onSp at h
  unfold Tracked
  split at h
  · rename_i y hy
    rw [isSp_spec k y h, hy]
    exact ⟨fun h => ⟨hr, y, rfl, h⟩, fun ⟨_, z, e, h⟩ => by cases e; exact h⟩
  · rename_i hn
    cases h
    simp only [Bool.false_eq_true, false_iff]
    rintro ⟨_, y, e, _⟩
    exact hn y e

theorem addr_live {f : Fn} (ht : Tidy f) {x y : Nat} (hx : Live f x) (hr : (f.insn x).op = .loadraw ∨ (f.insn x).op = .storeraw)
    (e : (f.insn x).addr = .insn y) : Live f y :=
  ht.closed x y hx (refs_pos.2 (by unfold operands; rcases hr with hr | hr <;> simp [hr, raw, e]))

theorem onSp_congr {f g : Fn} (ht : Tidy f) (hsp : g.sp = f.sp) (hi : ∀ x, Live f x → g.insn x = f.insn x) {k x : Nat} (hx : Live f x)
    (hr : (f.insn x).op = .loadraw ∨ (f.insn x).op = .storeraw) : onSp k g x = onSp k f x := by
  unfold onSp
  rw [hi x hx]
  split
  · rename_i y hy
    exact isSp_congr ht hsp hi k y (addr_live ht hx hr hy)
  · rfl

/-- The state of the pass: `f0` is the function with the array `a`, `l` the parts of it that are filled, `P` the instructions already looked at. -/
structure Inv (f f0 : Fn) (a : Nat) (l : List Nat) (P : Nat → Prop) (g : Fn) (M : Nat → List Nat) : Prop where
  grown : Grown f0 g (fun _ => []) (fun _ => []) M (fun _ => [])
  old : ∀ x, Live f0 x → g.insn x = f0.insn x
  lt : ∀ x, ∀ n ∈ M x, n < g.next
  fills : (M a).map g.insn = (l.map (fill a)).reverse
  yes : ∀ x, x ≠ a → P x → Tracked f x → ∃ n, M x = [n] ∧
    ((f.insn x).op = .storeraw → g.insn n = shadowStore (f.insn x)) ∧ ((f.insn x).op = .loadraw → g.insn n = shadowLoad (f.insn x))
  no : ∀ x, x ≠ a → ¬ (P x ∧ Tracked f x) → M x = []

/-- The function with the array. -/
structure Base (f f0 : Fn) (a : Nat) : Prop where
  tidy : Tidy f
  tidy0 : Tidy f0
  sp : f0.sp = f.sp
  entry : f.entry ∈ f0.allBbs
  arr : a ∈ codeOf f0 f.entry
  fresh : f.next ≤ a
  op : f0.insn a = mkAllocarray .t64 32
  live : ∀ x, Live f x → Live f0 x
  old : ∀ x, Live f x → f0.insn x = f.insn x

variable {f f0 : Fn} {a : Nat} {l : List Nat} {P : Nat → Prop} {g : Fn} {M : Nat → List Nat}

theorem map_upd {ns : List Nat} {h : Nat → Insn} {n : Nat} {i : Insn} (hn : ∀ m ∈ ns, m < n) : ns.map (upd h n i) = ns.map h :=
  List.map_congr_left (fun m hm => upd_ne _ _ (by have := hn m hm; omega))

/-- One instruction is added. -/
theorem Inv.add (hi : Inv f f0 a l P g M) (hb : Base f f0 a) {b x : Nat} (hbb : b ∈ f0.allBbs) (hx : x ∈ codeOf f0 b) (hop : (f0.insn x).op ≠ .phi)
    {i : Insn} (hops : ∀ y, .insn y ∈ operands i → Live f0 y) :
    ∃ g', createAt g i x .back = .ok g' ∧ g'.insn = upd g.insn g.next i ∧ g'.next = g.next + 1 ∧
      Grown f0 g' (fun _ => []) (fun _ => []) (upd M x (g.next :: M x)) (fun _ => []) ∧ ∀ y, Live f0 y → g'.insn y = f0.insn y := by
  have hxl : Live f0 x := .inr (.inr ⟨b, hbb, by rw [← phisOf_append f0 b]; exact List.mem_append_right _ hx⟩)
  obtain ⟨g', h1, h2, h3⟩ := hi.grown.back hb.tidy0 hbb hx (by rw [hi.old x hxl]; exact hop) (i := i) (fun y hy => hi.grown.live (hops y hy))
  refine ⟨g', h1, h2.insn, h2.next, h3, fun y hy => ?_⟩
  rw [h2.insn, upd_ne, hi.old y hy]
  have := hb.tidy0.lt y hy
  have := hi.grown.next
  omega

theorem fillAll_inv (hb : Base f f0 a) : ∀ (ms : List Nat) {l : List Nat} {g : Fn} {M : Nat → List Nat}, Inv f f0 a l (fun _ => False) g M →
    ∃ g' M', fillAll a ms g = .ok g' ∧ Inv f f0 a (l ++ ms) (fun _ => False) g' M'
  | [], l, g, M, hi => ⟨g, M, rfl, by rw [List.append_nil]; exact hi⟩
  | m :: ms, l, g, M, hi => by
    have hal : Live f0 a := .inr (.inr ⟨f.entry, hb.entry, by rw [← phisOf_append f0 f.entry]; exact List.mem_append_right _ hb.arr⟩)
    obtain ⟨g', h1, h2, h3, h4, h5⟩ := hi.add hb hb.entry hb.arr (by rw [hb.op]; simp [mkAllocarray]) (i := fill a m) (fun y hy => by
      have : y = a := by simpa [fill, mkStoreraw, operands, raw, const64] using hy
      rw [this]; exact hal)
    obtain ⟨g'', M'', h6, h7⟩ := fillAll_inv hb ms (l := l ++ [m]) (g := g') (M := upd M a (g.next :: M a)) (by
      refine ⟨h4, h5, ?_, ?_, fun x _ h => h.elim, fun x hx h => ?_⟩
      · intro x n hn
        rw [h3]
        by_cases e : x = a
        · subst e
          rw [upd_same] at hn
          rcases List.mem_cons.1 hn with hn | hn
          · omega
          · have := hi.lt x n hn; omega
        · rw [upd_ne _ _ e] at hn
          have := hi.lt x n hn; omega
      · rw [upd_same, List.map_cons, h2, upd_same, map_upd (hi.lt a), hi.fills]
        simp
      · rw [upd_ne _ _ hx]; exact hi.no x hx h)
    refine ⟨g'', M'', ?_, ?_⟩
    · unfold fillAll
      rw [h1, Out.ok_bind]; exact h6
    · rw [List.append_assoc] at h7; exact h7

/-- The new instruction for `x`. -/
theorem shade_inv (hb : Base f f0 a) {mk : Insn → Insn} {o : Op} (ho : o = .storeraw ∧ mk = shadowStore ∨ o = .loadraw ∧ mk = shadowLoad) {k x b : Nat} (hbb : b ∈ f0.allBbs) (hbx : x ∈ codeOf f0 b) (hx : Live f x) (hop : (f.insn x).op = o)
    (hP : ¬ P x) (hi : Inv f f0 a l P g M) {g' : Fn} (h : shade k mk g x = .ok g') : ∃ M', Inv f f0 a l (fun y => P y ∨ y = x) g' M' := by
  have hr : (f.insn x).op = .loadraw ∨ (f.insn x).op = .storeraw := by rcases ho with ⟨e, _⟩ | ⟨e, _⟩ <;> simp [hop, e]
  have hold : ∀ y, Live f y → g.insn y = f.insn y := fun y hy => (hi.old y (hb.live y hy)).trans (hb.old y hy)
  have hxa : x ≠ a := fun e => by
    have := hb.tidy.lt x hx; have := hb.fresh; omega
  have hM : M x = [] := hi.no x hxa (fun h => hP h.1)
  unfold shade at h
  rw [onSp_congr hb.tidy (hi.grown.sp.trans hb.sp) hold hx hr, Out.bind_eq_ok] at h
  obtain ⟨t, ht, h⟩ := h
  have hts := onSp_spec hr ht
  cases t with
  | false =>
    cases h
    have hn : ¬ Tracked f x := fun h => by simpa using hts.2 h
    refine ⟨M, hi.grown, hi.old, hi.lt, hi.fills, fun y hy hp htr => ?_, fun y hy hn' => ?_⟩
    · rcases hp with hp | rfl
      · exact hi.yes y hy hp htr
      · exact absurd htr hn
    · exact hi.no y hy (fun h => hn' ⟨.inl h.1, h.2⟩)
  | true =>
    dsimp only at h
    rw [hold x hx] at h
    have hops : ∀ y, .insn y ∈ operands (mk (f.insn x)) → Live f0 y := by
      intro y hy
      have : (f.insn x).addr = .insn y := by
        rcases ho with ⟨_, e⟩ | ⟨_, e⟩ <;> subst e <;>
          simp [shadowStore, shadowLoad, mkStoreraw, mkLoadraw, operands, raw, const32] at hy <;> exact hy.symm
      exact hb.live y (addr_live hb.tidy hx hr this)
    obtain ⟨g1, h1, h2, h3, h4, h5⟩ := hi.add hb hbb hbx (by rw [hb.old x hx]; rcases hr with hr | hr <;> simp [hr]) hops
    rw [h1] at h
    cases h
    refine ⟨upd M x (g.next :: M x), h4, h5, ?_, ?_, ?_, ?_⟩
    · intro y n hn
      rw [h3]
      by_cases e : y = x
      · subst e
        rw [upd_same, hM] at hn
        have : n = g.next := by simpa using hn
        omega
      · rw [upd_ne _ _ e] at hn
        have := hi.lt y n hn; omega
    · rw [upd_ne _ _ (Ne.symm hxa), h2, map_upd (hi.lt a), hi.fills]
    · intro y hy hp htr
      by_cases e : y = x
      · subst e
        rw [upd_same, hM]
        refine ⟨g.next, rfl, ?_, ?_⟩
        · intro e
          rw [h2, upd_same]
          rcases ho with ⟨e', e2⟩ | ⟨e', e2⟩
          · rw [e2]
          · rw [e, e'] at hop; cases hop
        · intro e
          rw [h2, upd_same]
          rcases ho with ⟨e', e2⟩ | ⟨e', e2⟩
          · rw [e, e'] at hop; cases hop
          · rw [e2]
      · rw [upd_ne _ _ e]
        obtain ⟨n, hn, h6, h7⟩ := hi.yes y hy (hp.resolve_right e) htr
        have := hi.lt y n (by rw [hn]; simp)
        refine ⟨n, hn, ?_, ?_⟩
        · rw [h2, upd_ne _ _ (by omega)]; exact h6
        · rw [h2, upd_ne _ _ (by omega)]; exact h7
    · intro y hy hn'
      by_cases e : y = x
      · subst e
        exact absurd ⟨.inr rfl, hts.1 rfl⟩ hn'
      · rw [upd_ne _ _ e]
        exact hi.no y hy (fun h => hn' ⟨.inl h.1, h.2⟩)

theorem shadeAll_inv (hb : Base f f0 a) {mk : Insn → Insn} {o : Op} (ho : o = .storeraw ∧ mk = shadowStore ∨ o = .loadraw ∧ mk = shadowLoad) {k : Nat} :
    ∀ (xs : List Nat) {P : Nat → Prop} {g : Fn} {M : Nat → List Nat}, xs.Nodup → (∀ x ∈ xs, ¬ P x ∧ Live f x ∧ (f.insn x).op = o ∧ ∃ b ∈ f0.allBbs, x ∈ codeOf f0 b) →
    Inv f f0 a l P g M → ∀ {g' : Fn}, shadeAll k mk xs g = .ok g' → ∃ M', Inv f f0 a l (fun y => P y ∨ y ∈ xs) g' M'
  | [], P, g, M, _, _, hi, g', h => by
    cases h
    refine ⟨M, ?_⟩
    have : (fun y => P y ∨ y ∈ ([] : List Nat)) = P := by funext y; simp
    rw [this]; exact hi
  | x :: xs, P, g, M, hn, hx, hi, g', h => by
    rw [shadeAll, Out.bind_eq_ok] at h
    obtain ⟨g1, h1, h2⟩ := h
    obtain ⟨hxP, hxl, hxo, b, hb1, hb2⟩ := hx x List.mem_cons_self
    obtain ⟨M1, hi1⟩ := shade_inv hb ho hb1 hb2 hxl hxo hxP hi h1
    rw [List.nodup_cons] at hn
    obtain ⟨M2, hi2⟩ := shadeAll_inv hb ho xs hn.2 (fun y hy => by
      obtain ⟨h3, h4⟩ := hx y (List.mem_cons_of_mem _ hy)
      exact ⟨fun h => h.elim h3 (fun e => hn.1 (e ▸ hy)), h4⟩) hi1 h2
    refine ⟨M2, ?_⟩
    have : (fun y => P y ∨ y ∈ x :: xs) = (fun y => (P y ∨ y = x) ∨ y ∈ xs) := by
      funext y; simp only [List.mem_cons]; rw [or_assoc]
    rw [this]; exact hi2

/-- The loops go through if the search does. -/
theorem shadeAll_ok (hb : Base f f0 a) {mk : Insn → Insn} {o : Op} (ho : o = .storeraw ∧ mk = shadowStore ∨ o = .loadraw ∧ mk = shadowLoad) {k : Nat}
    (hk : ∀ x, Live f x → ∃ t, onSp k f x = .ok t) :
    ∀ (xs : List Nat) {P : Nat → Prop} {g : Fn} {M : Nat → List Nat}, xs.Nodup → (∀ x ∈ xs, ¬ P x ∧ Live f x ∧ (f.insn x).op = o ∧ ∃ b ∈ f0.allBbs, x ∈ codeOf f0 b) →
    Inv f f0 a l P g M → ∃ g', shadeAll k mk xs g = .ok g'
  | [], P, g, M, _, _, hi => ⟨g, rfl⟩
  | x :: xs, P, g, M, hn, hx, hi => by
    obtain ⟨hxP, hxl, hxo, b, hb1, hb2⟩ := hx x List.mem_cons_self
    have hr : (f.insn x).op = .loadraw ∨ (f.insn x).op = .storeraw := by rcases ho with ⟨e, _⟩ | ⟨e, _⟩ <;> simp [hxo, e]
    have hold : ∀ y, Live f y → g.insn y = f.insn y := fun y hy => (hi.old y (hb.live y hy)).trans (hb.old y hy)
    have hs : ∃ g1, shade k mk g x = .ok g1 := by
      obtain ⟨t, ht⟩ := hk x hxl
      unfold shade
      rw [onSp_congr hb.tidy (hi.grown.sp.trans hb.sp) hold hxl hr, ht, Out.ok_bind]
      cases t with
      | false => exact ⟨_, rfl⟩
      | true =>
        dsimp only
        rw [hold x hxl]
        have hops : ∀ y, .insn y ∈ operands (mk (f.insn x)) → Live f0 y := by
          intro y hy
          have : (f.insn x).addr = .insn y := by
            rcases ho with ⟨_, e⟩ | ⟨_, e⟩ <;> subst e <;>
              simp [shadowStore, shadowLoad, mkStoreraw, mkLoadraw, operands, raw, const32] at hy <;> exact hy.symm
          exact hb.live y (addr_live hb.tidy hxl hr this)
        obtain ⟨g1, h1, _⟩ := hi.add hb hb1 hb2 (by rw [hb.old x hxl]; rcases hr with hr | hr <;> simp [hr]) hops
        exact ⟨g1, h1⟩
    obtain ⟨g1, h1⟩ := hs
    obtain ⟨M1, hi1⟩ := shade_inv hb ho hb1 hb2 hxl hxo hxP hi h1
    rw [List.nodup_cons] at hn
    obtain ⟨g2, h2⟩ := shadeAll_ok hb ho hk xs hn.2 (fun y hy => by
      obtain ⟨h3, h4⟩ := hx y (List.mem_cons_of_mem _ hy)
      exact ⟨fun h => h.elim h3 (fun e => hn.1 (e ▸ hy)), h4⟩) hi1
    exact ⟨g2, by rw [shadeAll, h1, Out.ok_bind]; exact h2⟩

end Verif.Msan
