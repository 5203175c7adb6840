import Verif.Spec.Trail
import Verif.Count.One
/-!
# What the function looks like after the counting passes
-/
namespace Verif.Count
open Verif Verif.IR Verif.Edit Verif.Guard
set_option linter.unusedSimpArgs false

/-- `g` is `f` with counters in the blocks `bs`. -/
structure Built (f : Fn) (a : Nat) (v : Val) (lim : BitVec 32) (bs : List Nat) (g : Fn) : Prop where
  shape : Shape g
  next : f.next ≤ g.next
  insn : ∀ x < f.next, g.insn x = f.insn x
  sub : ∀ c ∈ f.allBbs, c ∈ g.allBbs
  entry : g.entry = f.entry
  fixed : g.sp = f.sp ∧ g.args = f.args
  body : ∀ c ∈ f.allBbs, c ∉ bs → g.body c = f.body c
  succs : ∀ c ∈ f.allBbs, c ∉ bs → g.succs c = f.succs c
  predsLen : ∀ c ∈ f.allBbs, (g.preds c).length = (f.preds c).length
  origin : ∀ c ∈ f.allBbs, ∀ p ∈ g.preds c, p ∈ f.preds c ∨ (p ∉ f.allBbs ∧ ∃ b ∈ bs, b ∈ f.preds c ∧ g.preds p = [b])
  sites : ∀ b ∈ bs, ∃ t e l ad s j, New f g a v lim b t e l ad s j
  new : ∀ c ∈ g.allBbs, c ∉ f.allBbs → ∃ b ∈ bs, g.preds c = [b] ∧ ∃ t e l ad s j, New f g a v lim b t e l ad s j ∧ (c = t ∨ c = e)
  stores : ∀ x, x < g.next → f.next ≤ x → (g.insn x).op = .store → ∃ b ∈ bs, ∃ t e l ad s j, New f g a v lim b t e l ad s j ∧ x = s

theorem Built.nil {f : Fn} (hs : Shape f) (a : Nat) (v : Val) (lim : BitVec 32) : Built f a v lim [] f :=
  ⟨hs, Nat.le_refl _, fun _ _ => rfl, fun _ h => h, rfl, ⟨rfl, rfl⟩, fun _ _ _ => rfl, fun _ _ _ => rfl, fun _ _ => rfl, fun _ _ _ h => .inl h,
    by simp, fun c h h' => absurd h h', fun x hx hn _ => absurd hx (by omega)⟩

theorem Built.cons {f f1 g : Fn} {a : Nat} {v : Val} {lim : BitVec 32} {b : Nat} {bs : List Nat} {t e l ad s j : Nat} (hs : Shape f) (hb : b ∉ bs)
    (hbs : ∀ c ∈ bs, c ∈ f.allBbs) (O : One f a v lim b f1 t e l ad s j) (R : Built f1 a v lim bs g) : Built f a v lim (b :: bs) g := by
  have hpre : ∀ c ∈ f1.allBbs, f1.preds c = [b] → g.preds c = [b] := by
    intro c hc hp
    have hall : ∀ p ∈ g.preds c, p = b := by
      intro p hpm
      rcases R.origin c hc p hpm with h | ⟨_, b', hb', h, _⟩
      · rw [hp] at h; exact List.mem_singleton.1 h
      · rw [hp] at h; exact absurd (List.mem_singleton.1 h ▸ hb') hb
    have hlen := R.predsLen c hc
    rw [hp] at hlen
    match hg : g.preds c, hlen with
    | [p], _ => rw [hall p (by rw [hg]; simp)]
  have hN := O.nw
  have hbf := hN.inF
  have hmem1 : ∀ x ∈ f1.body b, g.insn x = f1.insn x := fun x hx => R.insn x (lt_of_body O.shape.tidy (O.sub b hbf) hx)
  have hbody : g.body b = f1.body b := R.body b (O.sub b hbf) hb
  have hE : e ∉ bs := fun h => hN.errNew (hbs e h)
  have T1 : New f g a v lim b t e l ad s j := by
    have S := hN.site
    obtain ⟨A, hA⟩ := S.body
    obtain ⟨th, hth, hti⟩ := S.err
    have hbe := R.body e S.inE hE
    refine ⟨⟨R.sub b S.inB, ?_, ?_, ?_, ?_, ?_, S.ne, ⟨A, by rw [hbody, hA]⟩, ⟨th, by rw [hbe, hth], ?_⟩, R.sub e S.inE⟩, hbf, hN.hl, hN.had, hN.hs, hN.hj,
      hN.errNew, ?_, ?_⟩
    · rw [hmem1 l (by rw [hA]; simp), S.load]
    · rw [hmem1 ad (by rw [hA]; simp), S.add]
    · rw [hmem1 s (by rw [hA]; simp), S.store]
    · rw [hmem1 j (by rw [hA]; simp), S.jump]
    · rw [R.succs b S.inB hb, S.succs]
    · rw [R.insn th (lt_of_body O.shape.tidy S.inE (by rw [hth]; simp)), hti]
    · rw [hbe]; exact hN.errBody
    · obtain ⟨A', B, h1, h2, h3⟩ := hN.split
      refine ⟨A', B, h1, by rw [hbody, h2], ?_⟩
      rcases h3 with h3 | ⟨x, h3, h4, h5, h6, h7⟩
      · exact .inl h3
      · have ht : t ∈ f1.allBbs := (O.shape.graph.succs b S.inB).2 t (by rw [S.succs]; simp)
        exact .inr ⟨x, h3, h4, h5, by rw [R.body t ht (fun h => h5 (hbs t h)), h6], hpre t ht h7⟩
  have T2 : ∀ b' ∈ bs, ∀ t e l ad s j, New f1 g a v lim b' t e l ad s j → New f g a v lim b' t e l ad s j := by
    intro b' hb' t e l ad s j N
    have hne : b' ≠ b := fun h => hb (h ▸ hb')
    have hbf' := hbs b' hb'
    have hn := O.next
    refine ⟨N.site, hbf', Nat.le_trans hn N.hl, Nat.le_trans hn N.had, Nat.le_trans hn N.hs, Nat.le_trans hn N.hj, fun h => N.errNew (O.sub e h),
      fun x hx => Nat.le_trans hn (N.errBody x hx), ?_⟩
    obtain ⟨A', B, h1, h2, h3⟩ := N.split
    rw [O.body b' hbf' hne] at h1
    refine ⟨A', B, h1, h2, ?_⟩
    rcases h3 with ⟨h3, h4⟩ | ⟨x, h3, h4, h5, h6⟩
    · exact .inl ⟨h3, by rw [← O.succs b' hbf' hne]; exact h4⟩
    · refine .inr ⟨x, h3, ?_, fun h => h5 (O.sub t h), h6⟩
      rw [← O.insn x]
      · exact h4
      · exact lt_of_body hs.tidy hbf' (by rw [h1, h3]; simp)
  refine ⟨R.shape, Nat.le_trans O.next R.next, ?_, fun c hc => R.sub c (O.sub c hc), by rw [R.entry, O.entry],
    ⟨by rw [R.fixed.1, O.fixed.1], by rw [R.fixed.2, O.fixed.2]⟩, ?_, ?_, ?_, ?_, ?_, ?_, ?_⟩
  · intro x hx; rw [R.insn x (Nat.lt_of_lt_of_le hx O.next), O.insn x hx]
  · intro c hc hcb
    rw [R.body c (O.sub c hc) (fun h => hcb (List.mem_cons_of_mem _ h)), O.body c hc (fun h => hcb (h ▸ List.mem_cons_self ..))]
  · intro c hc hcb
    rw [R.succs c (O.sub c hc) (fun h => hcb (List.mem_cons_of_mem _ h)), O.succs c hc (fun h => hcb (h ▸ List.mem_cons_self ..))]
  · intro c hc; rw [R.predsLen c (O.sub c hc), O.predsLen c hc]
  · intro c hc p hp
    rcases R.origin c (O.sub c hc) p hp with h | ⟨h1, b', hb', h2, h3⟩
    · rcases O.origin c hc p h with h | ⟨h1, h2, h3⟩
      · exact .inl h
      · exact .inr ⟨h1, b, List.mem_cons_self .., h3, hpre p h2 (O.new p h2 h1).1⟩
    · refine .inr ⟨fun h => h1 (O.sub p h), b', List.mem_cons_of_mem _ hb', ?_, h3⟩
      rcases O.origin c hc b' h2 with h | ⟨h, _⟩
      · exact h
      · exact absurd (hbs b' hb') h
  · intro c hc
    rcases List.mem_cons.1 hc with rfl | hc
    · exact ⟨t, e, l, ad, s, j, T1⟩
    · obtain ⟨t, e, l, ad, s, j, h⟩ := R.sites c hc
      exact ⟨t, e, l, ad, s, j, T2 c hc _ _ _ _ _ _ h⟩
  · intro c hc hcf
    by_cases h1 : c ∈ f1.allBbs
    · obtain ⟨h2, h3⟩ := O.new c h1 hcf
      exact ⟨b, List.mem_cons_self .., hpre c h1 h2, t, e, l, ad, s, j, T1, h3⟩
    · obtain ⟨b', hb', h2, t, e, l, ad, s, j, h3, h4⟩ := R.new c hc h1
      exact ⟨b', List.mem_cons_of_mem _ hb', h2, t, e, l, ad, s, j, T2 b' hb' _ _ _ _ _ _ h3, h4⟩
  · intro x hx hn hop
    by_cases h1 : f1.next ≤ x
    · obtain ⟨b', hb', t, e, l, ad, s, j, h3, h4⟩ := R.stores x hx h1 hop
      exact ⟨b', List.mem_cons_of_mem _ hb', t, e, l, ad, s, j, T2 b' hb' _ _ _ _ _ _ h3, h4⟩
    · have h1' : x < f1.next := by omega
      rw [R.insn x h1'] at hop
      exact ⟨b, List.mem_cons_self .., t, e, l, ad, s, j, T1, O.stores x h1' hn hop⟩

/-! ## The passes -/

theorem addCounter_one {f g : Fn} {a b : Nat} {lim : BitVec 32} (hs : Shape f) (hb : b ∈ f.allBbs) (ha : Live f a)
    (h : addCounter f b a lim = .ok g) : ∃ t e l ad s j, One f a cntVal lim b g t e l ad s j := by
  have hv : ∀ y, cntVal ≠ .insn y := by intro y; simp [cntVal]
  unfold addCounter at h
  split at h
  · rename_i hl
    exact bumpEnd_one hs hb (by rw [hl]; simp) ha hv h
  · rename_i x hl
    split at h
    · rename_i hj
      exact bump_one hs hb (List.mem_of_getLast? hl) hj ha hv h
    · rename_i hj
      exact bumpEnd_one hs hb (by rw [hl]; intro y hy; cases hy; simpa using hj) ha hv h

theorem One.live {f g : Fn} {a : Nat} {v : Val} {lim : BitVec 32} {b : Nat} {t e l ad s j : Nat} (O : One f a v lim b g t e l ad s j) {x : Nat} (h : Live f x) : Live g x := by
  rcases h with h | h | ⟨c, hc, hx⟩
  · exact .inl (by rw [O.fixed.1]; exact h)
  · exact .inr (.inl (by rw [O.fixed.2]; exact h))
  · by_cases e : c = b
    · subst e
      obtain ⟨A, B, h1, h2, h3⟩ := O.nw.split
      rw [h1] at hx
      rcases List.mem_append.1 hx with h | h
      · exact .inr (.inr ⟨c, O.sub c hc, by rw [h2]; exact List.mem_append_left _ h⟩)
      · rcases h3 with ⟨h3, _⟩ | ⟨y, h3, _, _, h5, h6⟩
        · rw [h3] at h; cases h
        · have ht : t ∈ g.allBbs := (O.shape.graph.succs c (O.sub c hc)).2 t (by rw [O.nw.site.succs]; simp)
          exact .inr (.inr ⟨t, ht, by rw [h5, ← h3]; exact h⟩)
    · exact .inr (.inr ⟨c, O.sub c hc, by rw [O.body c hc e]; exact hx⟩)

theorem addAll_built {a : Nat} {lim : BitVec 32} : ∀ (bs : List Nat) {f g : Fn}, Shape f → bs.Nodup → (∀ b ∈ bs, b ∈ f.allBbs) → Live f a →
    addAll a lim bs f = .ok g → Built f a cntVal lim bs g := by
  intro bs
  induction bs with
  | nil => intro f g hs _ _ _ h; cases h; exact Built.nil hs _ _ _
  | cons b bs ih =>
    intro f g hs hnd hin ha h
    simp only [addAll] at h
    obtain ⟨f1, h1, h2⟩ := Out.bind_eq_ok.1 h
    obtain ⟨t, e, l, ad, s, j, O⟩ := addCounter_one hs (hin b (List.mem_cons_self ..)) ha h1
    have hnd' := List.nodup_cons.1 hnd
    have hin' : ∀ c ∈ bs, c ∈ f.allBbs := fun c hc => hin c (List.mem_cons_of_mem _ hc)
    exact Built.cons hs hnd'.1 hin' O (ih O.shape hnd'.2 (fun c hc => O.sub c (hin' c hc)) (O.live ha) h2)

theorem addFast_built {a : Nat} {lim : BitVec 32} : ∀ (rs : List Nat) {f g : Fn}, Shape f → rs.Nodup → (∀ b ∈ rs, b ∈ f.allBbs) → Live f a →
    addFast a lim rs f = .ok g → Built f a cntVal lim (rs.filter fun b => decide (1 < (f.preds b).length)) g := by
  intro rs
  induction rs with
  | nil => intro f g hs _ _ _ h; cases h; exact Built.nil hs _ _ _
  | cons b bs ih =>
    intro f g hs hnd hin ha h
    simp only [addFast] at h
    have hnd' := List.nodup_cons.1 hnd
    have hin' : ∀ c ∈ bs, c ∈ f.allBbs := fun c hc => hin c (List.mem_cons_of_mem _ hc)
    rw [List.filter_cons]
    split at h
    · rename_i hle
      rw [if_neg (by simpa using hle)]
      exact ih hs hnd'.2 hin' ha h
    · rename_i hle
      rw [if_pos (by simp; omega)]
      obtain ⟨f1, h1, h2⟩ := Out.bind_eq_ok.1 h
      obtain ⟨t, e, l, ad, s, j, O⟩ := addCounter_one hs (hin b (List.mem_cons_self ..)) ha h1
      have R := ih O.shape hnd'.2 (fun c hc => O.sub c (hin' c hc)) (O.live ha) h2
      have : bs.filter (fun b => decide (1 < (f1.preds b).length)) = bs.filter (fun b => decide (1 < (f.preds b).length)) :=
        List.filter_congr (fun c hc => by rw [O.predsLen c (hin' c hc)])
      rw [this] at R
      exact Built.cons hs (fun h => hnd'.1 (List.mem_filter.1 h).1) (fun c hc => hin' c (List.mem_filter.1 hc).1) O R

/-- The jumps `xs` stand in the blocks `bs`. -/
theorem bumpAll_built {a : Nat} {lim : BitVec 32} : ∀ (bs xs : List Nat) {f g : Fn}, Shape f → bs.Nodup → bs.length = xs.length → 
    (∀ p ∈ bs.zip xs, p.1 ∈ f.allBbs ∧ p.2 ∈ f.body p.1 ∧ isJmp (f.insn p.2).op = true) → Live f a →
    bumpAll a lim xs f = .ok g → Built f a (const32 1) lim bs g := by
  intro bs
  induction bs with
  | nil =>
    intro xs f g hs _ hlen _ _ h
    have : xs = [] := List.length_eq_zero_iff.1 hlen.symm
    subst this
    cases h; exact Built.nil hs _ _ _
  | cons b bs ih =>
    intro xs f g hs hnd hlen hin ha h
    cases xs with
    | nil => cases hlen
    | cons x xs =>
      simp only [bumpAll] at h
      obtain ⟨f1, h1, h2⟩ := Out.bind_eq_ok.1 h
      have hx := hin (b, x) (by simp)
      obtain ⟨t, e, l, ad, s, j, O⟩ := bump_one hs hx.1 hx.2.1 hx.2.2 ha (by intro y; simp [const32]) h1
      have hnd' := List.nodup_cons.1 hnd
      have hin' : ∀ p ∈ bs.zip xs, p.1 ∈ f.allBbs ∧ p.2 ∈ f.body p.1 ∧ isJmp (f.insn p.2).op = true := fun p hp => hin p (by
        rw [List.zip_cons_cons]; exact List.mem_cons_of_mem _ hp)
      have hbs : ∀ c ∈ bs, c ∈ f.allBbs := by
        intro c hc
        obtain ⟨i, hi, rfl⟩ := List.getElem_of_mem hc
        have hlen' : bs.length = xs.length := by simpa using hlen
        exact (hin' (bs[i], xs[i]'(by omega)) (by
          rw [List.mem_iff_getElem]
          exact ⟨i, by simp; omega, by simp⟩)).1
      refine Built.cons hs hnd'.1 hbs O (ih xs O.shape hnd'.2 (by simpa using hlen) ?_ (O.live ha) h2)
      intro p hp
      obtain ⟨h3, h4, h5⟩ := hin' p hp
      have hpb : p.1 ≠ b := fun e => hnd'.1 (e ▸ (List.of_mem_zip hp).1)
      refine ⟨O.sub _ h3, by rw [O.body _ h3 hpb]; exact h4, ?_⟩
      rw [O.insn _ (lt_of_body hs.tidy h3 h4)]; exact h5

/-- The counter variable at the start. -/
structure Setup (f : Fn) (g : Fn) : Prop where
  shape : Shape g
  insn : ∀ x < f.next, g.insn x = f.insn x
  alloc : g.insn f.next = mkAlloc .t32
  store : g.insn (f.next + 1) = mkStore f.next (const32 0)
  next : g.next = f.next + 2
  bodyE : g.body f.entry = f.next :: (f.next + 1) :: f.body f.entry
  body : ∀ c, c ≠ f.entry → g.body c = f.body c
  preds : g.preds = f.preds
  succs : g.succs = f.succs
  allBbs : g.allBbs = f.allBbs
  entry : g.entry = f.entry

theorem setup_spec {f g : Fn} (hs : Shape f) (hp : phisOf f f.entry = []) (h : setup f = .ok g) : Setup f g := by
  have hE := hs.entry
  have hnp : ∀ y ∈ f.body f.entry, (f.insn y).op ≠ .phi := by
    intro y hy
    apply hs.phis f.entry hE
    unfold phisOf at hp
    unfold codeOf
    have := List.takeWhile_append_dropWhile (p := fun x => (f.insn x).op == .phi) (l := f.body f.entry)
    rw [hp, List.nil_append] at this
    rw [this]; exact hy
  have hlt : ∀ y ∈ f.body f.entry, y < f.next := fun y hy => lt_of_body hs.tidy hE hy
  unfold setup at h
  have a1 := added_createBb f (mkAlloc .t32) f.entry .front
  have b1 : (createBb f (mkAlloc .t32) f.entry .front).body f.entry = f.next :: f.body f.entry := by
    unfold createBb
    dsimp only
    rw [upd_same, (alloc_same f (mkAlloc .t32) f.entry).body]
    rfl
  dsimp only at h
  generalize createBb f (mkAlloc .t32) f.entry .front = f1 at *
  have p1 : f1.parent f.next = f.entry := by rw [a1.parent, upd_same]
  have i1 : f1.insn f.next = mkAlloc .t32 := by rw [a1.insn, upd_same]
  have s1 : Shape f1 := shape_added (A := []) (B := f.body f.entry) hs a1 hE rfl b1 (by simp [operands, mkAlloc, raw]) (by simp [mkAlloc]) hnp (by simp) (by simp [mkAlloc, ends])
    ⟨by simp [mkAlloc], by simp [mkAlloc, Norm.Op.condJmp]⟩
  have a2 := added_createAt h (by rw [p1, b1]; simp)
  have b2 := createAt_back (A := []) (B := f.body f.entry) h (by rw [p1]; exact b1) (by simp) (by rw [i1]; simp [mkAlloc]) (by rw [a1.next]; omega)
  rw [p1] at a2 b2
  rw [a1.next] at b2
  have hE1 : f.entry ∈ f1.allBbs := by rw [a1.allBbs]; exact hE
  have s2 : Shape g := shape_added (A := [f.next]) (B := f.body f.entry) s1 a2 hE1 b1 (by rw [b2, a1.next]; rfl) (by
      intro y hy
      simp [operands, mkStore, raw, const32] at hy
      rw [hy, a1.live hE]; exact .inl rfl) (by simp [mkStore]) (fun y hy => by rw [a1.insn, upd_ne _ _ (by have := hlt y hy; omega)]; exact hnp y hy)
      (by intro y hy; rw [List.mem_singleton.1 hy, i1]; rfl) (by simp [mkStore, ends]) ⟨by simp [mkStore], by simp [mkStore, Norm.Op.condJmp]⟩
  refine ⟨s2, ?_, ?_, ?_, by rw [a2.next, a1.next], b2, ?_, by rw [a2.preds, a1.preds], by rw [a2.succs, a1.succs], by rw [a2.allBbs, a1.allBbs], by rw [a2.entry, a1.entry]⟩
  · intro x hx; rw [a2.insn, a1.next, upd_ne _ _ (by omega), a1.insn, upd_ne _ _ (by omega)]
  · rw [a2.insn, a1.next, upd_ne _ _ (by omega), i1]
  · rw [a2.insn, a1.next, upd_same]
  · intro c hc; rw [a2.body c hc, a1.body c hc]

/-! ## Reachability -/

theorem Conn.mem {f : Fn} (hs : Shape f) {c : Nat} (h : Conn f c) : c ∈ f.allBbs := by
  induction h with
  | entry => exact hs.entry
  | step _ hb ih => exact (hs.graph.succs _ ih).2 _ hb

theorem Built.conn {f g : Fn} {a : Nat} {v : Val} {lim : BitVec 32} {bs : List Nat} (hs : Shape f) (R : Built f a v lim bs g) {c : Nat} (h : Conn g c) :
    (c ∈ f.allBbs → Conn f c) ∧ (c ∉ f.allBbs → ∃ b ∈ bs, Conn f b ∧ g.preds c = [b]) := by
  induction h with
  | entry =>
    rw [R.entry]
    exact ⟨fun _ => .entry, fun h => absurd hs.entry h⟩
  | @step p c hp hc ih =>
    have hpm := Conn.mem R.shape hp
    have hcm := (R.shape.graph.succs p hpm).2 c hc
    have hpp := (R.shape.graph.sym p hpm c hcm).1 hc
    constructor
    · intro hcf
      rcases R.origin c hcf p hpp with h | ⟨h1, b, hb, h2, h3⟩
      · have hpf := (hs.graph.preds c hcf).2 p h
        exact .step (ih.1 hpf) ((hs.graph.sym p hpf c hcf).2 h)
      · obtain ⟨b', _, h4, h5⟩ := ih.2 h1
        rw [h3] at h5
        cases h5
        exact .step h4 ((hs.graph.sym b ((hs.graph.preds c hcf).2 b h2) c hcf).2 h2)
    · intro hcf
      obtain ⟨b, hb, h1, t, e, l, ad, s, j, N, _⟩ := R.new c hcm hcf
      rw [h1] at hpp
      have : p = b := List.mem_singleton.1 hpp
      subst this
      exact ⟨p, hb, ih.1 N.inF, h1⟩

end Verif.Count
