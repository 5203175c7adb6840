import Verif.Count.Bound
/-!
# The passes make functions with counters
-/
namespace Verif.Count
open Verif Verif.IR Verif.Edit Verif.Guard
set_option linter.unusedSimpArgs false

/-- `h` is `g` with every builtin constant of the blocks that can be executed replaced by a number of at least one (the
number of instructions of the block, which is known at the end only). -/
structure Filled (g h : Fn) : Prop where
  same : ∃ i, h = { g with insn := i }
  conn : ∀ b, Conn g b → ∀ x ∈ g.body b, (g.insn x).op ≠ .alloc → (g.insn x).op ≠ .allocarray → ∃ c : BitVec 64, 1 ≤ c.toNat ∧ c.toNat < 2 ^ 32 ∧ h.insn x = mapOps (fillVal c) (g.insn x)
  other : ∀ x, h.insn x = g.insn x ∨ ∃ c : BitVec 64, h.insn x = mapOps (fillVal c) (g.insn x)

theorem fillVal_insn (c : BitVec 64) (v : Val) (y : Nat) : fillVal c v = .insn y ↔ v = .insn y := by
  unfold fillVal
  split <;> simp

theorem refs_fill (c : BitVec 64) (i : Insn) (y : Nat) : refs (mapOps (fillVal c) i) y = refs i y := by
  rw [refs_eq, refs_eq, operands_mapOps, List.count_eq_countP, List.countP_map, List.count_eq_countP]
  apply List.countP_congr
  intro v _
  simp only [Function.comp, beq_iff_eq]
  rw [fillVal_insn]

/-- What the shape of a function depends on. -/
structure Alike (g h : Fn) : Prop where
  op : ∀ x, (h.insn x).op = (g.insn x).op
  refs : ∀ x y, refs (h.insn x) y = refs (g.insn x) y
  bb : ∀ x, (h.insn x).bb1 = (g.insn x).bb1 ∧ (h.insn x).bb2 = (g.insn x).bb2
  phi : ∀ x, (h.insn x).phi.map (·.1) = (g.insn x).phi.map (·.1)

theorem Filled.alike {g h : Fn} (F : Filled g h) : Alike g h := by
  have hx : ∀ x, h.insn x = g.insn x ∨ ∃ c : BitVec 64, h.insn x = mapOps (fillVal c) (g.insn x) := F.other
  refine ⟨?_, ?_, ?_, ?_⟩
  · intro x; rcases hx x with e | ⟨c, e⟩ <;> rw [e]; rfl
  · intro x y; rcases hx x with e | ⟨c, e⟩ <;> rw [e]; exact refs_fill c _ _
  · intro x; rcases hx x with e | ⟨c, e⟩ <;> rw [e] <;> exact ⟨rfl, rfl⟩
  · intro x; rcases hx x with e | ⟨c, e⟩ <;> rw [e]
    unfold mapOps
    dsimp only
    split <;> simp [Function.comp_def]

theorem shape_alike {g : Fn} {i : Nat → Insn} (A : Alike g { g with insn := i }) (hs : Shape g) : Shape { g with insn := i } := by
  have hcode : ∀ b, codeOf { g with insn := i } b = codeOf g b := by
    intro b
    unfold codeOf
    exact Guard.dropWhile_congr (fun x _ => by have := A.op x; dsimp only at this ⊢; rw [this])
  refine ⟨⟨hs.tidy.lt, ?_, hs.tidy.parent, hs.tidy.nodup, hs.tidy.fixed⟩, ⟨hs.graph.sym, hs.graph.succs, hs.graph.preds⟩, ?_, hs.entry, ?_, ?_, ?_⟩
  · intro x y hx hr
    rw [A.refs] at hr
    exact hs.tidy.closed x y hx hr
  · intro b hb x hx
    have := hs.wired b hb x hx
    rw [A.op, (A.bb x).1, (A.bb x).2]
    exact this
  · intro b hb x hx
    rw [hcode] at hx
    rw [A.op]
    exact hs.phis b hb x hx
  · intro b hb l z r hl he
    rw [A.op] at he
    exact hs.last b hb l z r hl he
  · intro b hb x hx hop o ho
    rw [A.op] at hop
    have : o.1 ∈ (g.insn x).phi.map (·.1) := by rw [← A.phi x]; exact List.mem_map.2 ⟨o, ho, rfl⟩
    obtain ⟨o', ho', e⟩ := List.mem_map.1 this
    have h2 := hs.labels b hb x hx hop o' ho'
    rw [e] at h2
    exact h2

theorem mapOps_site {c : BitVec 64} :
    (∀ a, mapOps (fillVal c) (mkLoad (.insn a)) = mkLoad (.insn a)) ∧ (∀ l v, mapOps (fillVal c) (mkBin .add .w64 (.insn l) v) = mkBin .add .w64 (.insn l) (fillVal c v)) ∧
    (∀ a v, mapOps (fillVal c) (mkStore a (.insn v)) = mkStore a (.insn v)) ∧ (mapOps (fillVal c) mkThrow = mkThrow) ∧
    (∀ ad lim t e, mapOps (fillVal c) (mkJbin .jgt .w64 (.insn ad) (const32 lim) t e) = mkJbin .jgt .w64 (.insn ad) (const32 lim) t e) ∧
    (mapOps (fillVal c) (mkAlloc .t32) = mkAlloc .t32) ∧ (∀ a, mapOps (fillVal c) (mkStore a (const32 0)) = mkStore a (const32 0)) := by
  refine ⟨?_, ?_, ?_, ?_, ?_, ?_, ?_⟩ <;> intros <;> rfl

theorem site_fill {g h : Fn} {a b t e l ad s j : Nat} {v : Val} {lim : BitVec 32} (F : Filled g h) (S : Site g a b t e l ad s j v lim) : ∃ v', Site h a b t e l ad s j v' lim := by
  obtain ⟨i, hi⟩ := F.same
  have hM := @mapOps_site
  obtain ⟨th, hth, hti⟩ := S.err
  have key : ∀ x, h.insn x = g.insn x ∨ ∃ c, h.insn x = mapOps (fillVal c) (g.insn x) := F.other
  have hadd : ∃ v', h.insn ad = mkBin .add .w64 (.insn l) v' := by
    rcases key ad with h1 | ⟨c, h1⟩ <;> rw [h1, S.add]
    · exact ⟨v, rfl⟩
    · exact ⟨_, hM.2.1 l v⟩
  obtain ⟨v', hadd⟩ := hadd
  have hb : h.body = g.body := by rw [hi]
  refine ⟨v', by rw [hi]; exact S.inB, ?_, hadd, ?_, ?_, by rw [hi]; exact S.succs, S.ne, by rw [hb]; exact S.body, ⟨th, by rw [hb]; exact hth, ?_⟩, by rw [hi]; exact S.inE⟩
  · rcases key l with h1 | ⟨c, h1⟩ <;> rw [h1, S.load]; exact hM.1 a
  · rcases key s with h1 | ⟨c, h1⟩ <;> rw [h1, S.store]; exact hM.2.2.1 a ad
  · rcases key j with h1 | ⟨c, h1⟩ <;> rw [h1, S.jump]; exact hM.2.2.2.2.1 ad lim t e
  · rcases key th with h1 | ⟨c, h1⟩ <;> rw [h1, hti]; exact hM.2.2.2.1

theorem conn_same {g h : Fn} (hsu : h.succs = g.succs) (he : h.entry = g.entry) {b : Nat} (hc : Conn h b) : Conn g b := by
  induction hc with
  | entry => rw [he]; exact .entry
  | step _ h1 ih => rw [hsu] at h1; exact .step ih h1

/-- Nothing but the passes stores to the variable. -/
theorem old_store {f f1 g : Fn} {v : Val} {lim : BitVec 32} {bs : List Nat} (hs : Shape f) (U : Setup f f1) (R : Built f1 f.next v lim bs g) {x : Nat} (hx : InBody g x)
    (hop : (g.insn x).op = .store) (hv : (g.insn x).vals.head? = some (.insn f.next)) : x = f.next + 1 ∨ ∃ b ∈ bs, ∃ t e l ad s j, Site g f.next b t e l ad s j v lim ∧ x = s := by
  have hlt := R.shape.tidy.lt x (.inr (.inr hx))
  by_cases h1 : f1.next ≤ x
  · obtain ⟨b, hb, t, e, l, ad, s, j, N, h2⟩ := R.stores x hlt h1 hop
    exact .inr ⟨b, hb, t, e, l, ad, s, j, N.site, h2⟩
  · rw [U.next] at h1
    rcases Nat.lt_or_ge x f.next with h2 | h2
    · exfalso
      -- an old instruction refers to old ones only
      rw [R.insn x (by rw [U.next]; omega), U.insn x h2] at hv
      have hb : ∃ c ∈ f.allBbs, x ∈ f.body c := by
        obtain ⟨c, hc, hxc⟩ := hx
        have old : ∀ c ∈ f1.allBbs, x ∈ f1.body c → x ∈ f.body c := by
          intro c hc hxc
          by_cases he : c = f.entry
          · subst he
            rw [U.bodyE] at hxc
            rcases List.mem_cons.1 hxc with h | h
            · omega
            · rcases List.mem_cons.1 h with h | h
              · omega
              · exact h
          · rw [U.body c he] at hxc; exact hxc
        by_cases hcf : c ∈ f1.allBbs
        · refine ⟨c, by rw [← U.allBbs]; exact hcf, old c hcf ?_⟩
          by_cases hcb : c ∈ bs
          · obtain ⟨t, e, l, ad, s, j, N⟩ := R.sites c hcb
            obtain ⟨A, B, e1, e2, _⟩ := N.split
            rw [e2] at hxc
            have hN1 := N.hl; have hN2 := N.had; have hN3 := N.hs; have hN4 := N.hj
            rw [U.next] at hN1 hN2 hN3 hN4
            rcases List.mem_append.1 hxc with h | h
            · rw [e1]; exact List.mem_append_left _ h
            · exfalso
              simp at h
              omega
          · rw [R.body c hcf hcb] at hxc; exact hxc
        · obtain ⟨b, hb, _, t, e, l, ad, s, j, N, h3⟩ := R.new c hc hcf
          rcases h3 with rfl | rfl
          · obtain ⟨A, B, e1, e2, h4⟩ := N.split
            rcases h4 with ⟨_, h5⟩ | ⟨y, h5, _, _, h6, _⟩
            · exact absurd ((U.shape.graph.succs b N.inF).2 c (by rw [h5]; simp)) hcf
            · rw [h6] at hxc
              have := List.mem_singleton.1 hxc
              subst this
              exact ⟨b, by rw [← U.allBbs]; exact N.inF, old b N.inF (by rw [e1, h5]; simp)⟩
          · have := N.errBody x hxc
            rw [U.next] at this
            omega
      have hl : Live f f.next := by
        refine hs.tidy.closed x f.next (.inr (.inr hb)) (refs_pos.2 ?_)
        unfold operands
        obtain ⟨w, hw⟩ := List.head?_eq_some_iff.1 hv
        rw [hw]
        simp
      exact absurd (hs.tidy.lt _ hl) (by omega)
    · rcases Nat.eq_or_lt_of_le h2 with h3 | h3
      · rw [← h3, R.insn _ (by rw [U.next]; omega), U.alloc] at hop
        simp [mkAlloc] at hop
      · exact .inl (by omega)

theorem preds_entry {f f1 g : Fn} {v : Val} {lim : BitVec 32} {bs : List Nat} (hs : Shape f) (hp : f.preds f.entry = []) (U : Setup f f1) (R : Built f1 f.next v lim bs g) :
    g.preds g.entry = [] := by
  have := R.predsLen f.entry (by rw [U.allBbs]; exact hs.entry)
  rw [U.preds, hp] at this
  rw [R.entry, U.entry]
  exact List.length_eq_zero_iff.1 (by simpa using this)

/-- The body of the entry. -/
theorem body_entry {f f1 g : Fn} {v : Val} {lim : BitVec 32} {bs : List Nat} (hs : Shape f) (U : Setup f f1) (R : Built f1 f.next v lim bs g) :
    ∃ T, g.body g.entry = f.next :: (f.next + 1) :: T := by
  have hE : f.entry ∈ f1.allBbs := by rw [U.allBbs]; exact hs.entry
  rw [R.entry, U.entry]
  by_cases hb : f.entry ∈ bs
  · obtain ⟨t, e, l, ad, s, j, N⟩ := R.sites _ hb
    obtain ⟨A, B, e1, e2, h3⟩ := N.split
    rw [e2]
    have hcase : B = [] ∨ ∃ x, B = [x] ∧ isJmp (f1.insn x).op = true := by
      rcases h3 with ⟨h, _⟩ | ⟨x, h, h', _⟩
      · exact .inl h
      · exact .inr ⟨x, h, h'⟩
    rw [U.bodyE] at e1
    match A, e1 with
    | [], e1 =>
      rcases hcase with rfl | ⟨x, rfl, h'⟩
      · simp at e1
      · simp at e1
    | [y], e1 =>
      rcases hcase with rfl | ⟨x, rfl, h'⟩
      · simp at e1
      · simp at e1
        rw [← e1.2.1, U.store] at h'
        simp [mkStore, isJmp, Norm.Op.condJmp] at h'
    | y :: z :: A, e1 =>
      simp at e1
      rw [← e1.1, ← e1.2.1]
      exact ⟨A ++ [l, ad, s, j], rfl⟩
  · rw [R.body _ hE hb, U.bodyE]
    exact ⟨_, rfl⟩

/-- With the counts filled in, the instruction counter counts. -/
theorem filled_inst {f f1 g h : Fn} {lim : BitVec 32} {bs : List Nat} (hs : Shape f) (hp : f.preds f.entry = []) (U : Setup f f1)
    (R : Built f1 f.next cntVal lim bs g) (F : Filled g h) : Inst h f.next (f.next + 1) lim bs := by
  obtain ⟨i, hi⟩ := F.same
  have hA := F.alike
  have hM := @mapOps_site
  have hcn : ∀ b, Conn h b → Conn g b := fun b hb => conn_same (by rw [hi]) (by rw [hi]) hb
  refine ⟨?_, ?_, ?_, ?_, ?_, ?_, ?_⟩
  · rw [hi] at hA ⊢; exact shape_alike hA R.shape
  · rcases F.other f.next with h1 | ⟨c, h1⟩ <;> rw [h1, R.insn _ (by rw [U.next]; omega), U.alloc]; exact hM.2.2.2.2.2.1
  · rcases F.other (f.next + 1) with h1 | ⟨c, h1⟩ <;> rw [h1, R.insn _ (by rw [U.next]; omega), U.store]; exact hM.2.2.2.2.2.2 _
  · have := body_entry hs U R; rw [hi]; exact this
  · have := preds_entry hs hp U R; rw [hi]; exact this
  · intro b hb hc
    obtain ⟨t, e, l, ad, s, j, N⟩ := R.sites b hb
    obtain ⟨v', S'⟩ := site_fill F N.site
    obtain ⟨A, hA'⟩ := N.site.body
    obtain ⟨c, hc1, hc2, hc3⟩ := F.conn b (hcn b hc) ad (by rw [hA']; simp) (by rw [N.site.add]; simp [mkBin]) (by rw [N.site.add]; simp [mkBin])
    have : v' = .const .plain c .w32 .bbInsnCnt := by
      have h1 := S'.add
      rw [hc3, N.site.add, hM.2.1] at h1
      simp [mkBin, fillVal, cntVal] at h1
      exact h1.symm
    subst this
    exact ⟨t, e, l, ad, s, j, _, _, _, _, S', hc1, hc2⟩
  · intro x hx hop hv
    have hx' : InBody g x := by rw [hi] at hx; exact hx
    rw [hA.op] at hop
    have hv' : (g.insn x).vals.head? = some (.insn f.next) := by
      rcases F.other x with h1 | ⟨c, h1⟩
      · rw [h1] at hv; exact hv
      · rw [h1] at hv
        unfold mapOps at hv
        cases hvs : (g.insn x).vals with
        | nil => rw [hvs] at hv; simp at hv
        | cons w ws =>
          rw [hvs] at hv
          simp at hv
          simp [(fillVal_insn c w _).1 hv]
    rcases old_store hs U R hx' hop hv' with h | ⟨b, hb, t, e, l, ad, s, j, S, h⟩
    · exact .inl h
    · obtain ⟨v', S'⟩ := site_fill F S
      exact .inr ⟨b, hb, t, e, l, ad, s, j, v', S', h⟩

theorem plain_inst {f f1 g : Fn} {lim : BitVec 32} {bs : List Nat} {k ct bi} {c : BitVec 64} (hc : 1 ≤ c.toNat ∧ c.toNat < 2 ^ 32) (hs : Shape f) (hp : f.preds f.entry = []) (U : Setup f f1)
    (R : Built f1 f.next (.const k c ct bi) lim bs g) : Inst g f.next (f.next + 1) lim bs := by
  refine ⟨R.shape, ?_, ?_, body_entry hs U R, preds_entry hs hp U R, ?_, ?_⟩
  · rw [R.insn _ (by rw [U.next]; omega), U.alloc]
  · rw [R.insn _ (by rw [U.next]; omega), U.store]
  · intro b hb _
    obtain ⟨t, e, l, ad, s, j, N⟩ := R.sites b hb
    exact ⟨t, e, l, ad, s, j, _, _, _, _, N.site, hc⟩
  · intro x hx hop hv
    rcases old_store hs U R hx hop hv with h | ⟨b, hb, t, e, l, ad, s, j, S, h⟩
    · exact .inl h
    · exact .inr ⟨b, hb, t, e, l, ad, s, j, _, S, h⟩

/-! ## Every cycle has a counter -/

/-- A connected cycle has a block with more than one predecessor. -/
theorem two_preds {g : Fn} (hs : Shape g) (he : g.preds g.entry = []) {C : List Nat} (hC : Cyclic g C) (hcn : ∀ c ∈ C, Conn g c) : ∃ c ∈ C, 1 < (g.preds c).length := by
  apply Classical.byContradiction
  intro hno
  have hno' : ∀ c ∈ C, (g.preds c).length ≤ 1 := fun c hc => Classical.byContradiction fun h => hno ⟨c, hc, by omega⟩
  have hout : ∀ {c}, Conn g c → c ∉ C := by
    intro c h
    induction h with
    | entry =>
      intro h
      obtain ⟨p, _, hp⟩ := hC.pred _ h
      rw [he] at hp; cases hp
    | @step a b ha hb ih =>
      intro h
      obtain ⟨p, hp, hpp⟩ := hC.pred _ h
      have ham := Conn.mem hs ha
      have hbm := Conn.mem hs (.step ha hb)
      have hap := (hs.graph.sym a ham b hbm).1 hb
      have := hno' b h
      match hl : g.preds b, this with
      | [q], _ =>
        rw [hl] at hpp hap
        rw [List.mem_singleton.1 hap, ← List.mem_singleton.1 hpp] at ih
        exact ih hp
      | [], _ => rw [hl] at hap; cases hap
  obtain ⟨c, hc⟩ := List.exists_mem_of_ne_nil C hC.nonempty
  exact hout (hcn c hc) hc

theorem Built.cycle {f1 g : Fn} {a : Nat} {v : Val} {lim : BitVec 32} {bs : List Nat} (hs : Shape f1) (R : Built f1 a v lim bs g) (he : g.preds g.entry = [])
    (hb : ∀ c, Conn f1 c → 1 < (f1.preds c).length → c ∈ bs ∨ ∀ p ∈ f1.preds c, p ∈ bs) {C : List Nat} (hC : Cyclic g C) (hcn : ∀ c ∈ C, Conn g c) : ∃ c ∈ C, c ∈ bs := by
  obtain ⟨c, hc, h2⟩ := two_preds R.shape he hC hcn
  have hnew : ∀ d ∈ C, d ∉ f1.allBbs → ∃ c ∈ C, c ∈ bs := by
    intro d hd hdn
    obtain ⟨b, hb, hp, _⟩ := R.new d (Conn.mem R.shape (hcn d hd)) hdn
    obtain ⟨p, hpc, hpp⟩ := hC.pred d hd
    rw [hp] at hpp
    exact ⟨p, hpc, by rw [List.mem_singleton.1 hpp]; exact hb⟩
  by_cases hcf : c ∈ f1.allBbs
  · have hcc := (R.conn hs (hcn c hc)).1 hcf
    rcases hb c hcc (by rw [← R.predsLen c hcf]; exact h2) with h | h
    · exact ⟨c, hc, h⟩
    · obtain ⟨p, hpc, hpp⟩ := hC.pred c hc
      rcases R.origin c hcf p hpp with h3 | ⟨h3, _⟩
      · exact ⟨p, hpc, h p h3⟩
      · exact hnew p hpc h3
  · exact hnew c hc hcf

/-! ## The critical blocks -/

theorem mem_foldl_pushU {ps : List Nat} : ∀ {l : List Nat} {x : Nat}, x ∈ ps.foldl pushU l ↔ x ∈ l ∨ x ∈ ps := by
  induction ps with
  | nil => simp
  | cons p ps ih => intro l x; rw [List.foldl_cons, ih, mem_pushU', List.mem_cons]; tauto

theorem nodup_foldl_pushU {ps : List Nat} : ∀ {l : List Nat}, l.Nodup → (ps.foldl pushU l).Nodup := by
  induction ps with
  | nil => exact fun h => h
  | cons p ps ih => intro l h; exact ih (nodup_pushU' h)

theorem critical_aux (f : Fn) : ∀ (rs l : List Nat), l.Nodup →
    (rs.foldl (fun l b => if 1 < enPredNum f b then (f.preds b).foldl pushU l else l) l).Nodup ∧
    ∀ x, x ∈ rs.foldl (fun l b => if 1 < enPredNum f b then (f.preds b).foldl pushU l else l) l ↔ x ∈ l ∨ ∃ b ∈ rs, 1 < enPredNum f b ∧ x ∈ f.preds b := by
  intro rs
  induction rs with
  | nil => intro l h; exact ⟨h, by simp⟩
  | cons b rs ih =>
    intro l h
    rw [List.foldl_cons]
    split
    · rename_i hb
      obtain ⟨h1, h2⟩ := ih _ (nodup_foldl_pushU (ps := f.preds b) h)
      refine ⟨h1, fun x => ?_⟩
      rw [h2 x, mem_foldl_pushU]
      simp [hb, or_assoc]
    · rename_i hb
      obtain ⟨h1, h2⟩ := ih _ h
      refine ⟨h1, fun x => ?_⟩
      rw [h2 x]
      simp [hb]

theorem critical_nodup (rs : List Nat) (f : Fn) : (critical rs f).Nodup := (critical_aux f rs [] (by simp)).1

theorem mem_critical {rs : List Nat} {f : Fn} {x : Nat} : x ∈ critical rs f ↔ ∃ b ∈ rs, 1 < enPredNum f b ∧ x ∈ f.preds b := by
  unfold critical
  rw [(critical_aux f rs [] (by simp)).2 x]; simp

/-- The instruction counter, both modes. -/
theorem insnCounter_built {rs : List Nat} {acc : Bool} {lim : BitVec 32} {f g : Fn} (hs : Shape f) (hph : phisOf f f.entry = []) (hn : rs.Nodup) (hin : ∀ b ∈ rs, b ∈ f.allBbs)
    (hr : ∀ b, Conn f b → b ∈ rs) (h : insnCounter rs acc lim f = .ok g) : ∃ f1 bs, Setup f f1 ∧ Built f1 f.next cntVal lim bs g ∧
      (∀ c, Conn f1 c → 1 < (f1.preds c).length → c ∈ bs ∨ ∀ p ∈ f1.preds c, p ∈ bs) := by
  unfold insnCounter at h
  obtain ⟨f1, h1, h2⟩ := Out.bind_eq_ok.1 h
  have U := setup_spec hs hph h1
  have hl : Live f1 f.next := .inr (.inr ⟨f.entry, by rw [U.allBbs]; exact hs.entry, by rw [U.bodyE]; simp⟩)
  have hr1 : ∀ c, Conn f1 c → c ∈ rs := fun c hc => hr c (conn_same U.succs U.entry hc)
  have hin1 : ∀ b ∈ rs, b ∈ f1.allBbs := by rw [U.allBbs]; exact hin
  split at h2
  · refine ⟨f1, _, U, addAll_built _ U.shape (critical_nodup rs f1) ?_ hl h2, ?_⟩
    · intro b hb
      obtain ⟨c, hc, _, hp⟩ := mem_critical.1 hb
      exact (U.shape.graph.preds c (hin1 c hc)).2 b hp
    · intro c hc hlen
      refine .inr (fun p hp => mem_critical.2 ⟨c, hr1 c hc, ?_, hp⟩)
      unfold enPredNum
      split <;> omega
  · refine ⟨f1, _, U, addFast_built rs U.shape hn hin1 hl h2, ?_⟩
    intro c hc hlen
    exact .inl (List.mem_filter.2 ⟨hr1 c hc, by simpa using hlen⟩)

end Verif.Count
