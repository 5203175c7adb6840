import Verif.Count.Lemmas
/-!
# The jump counter
-/
namespace Verif.Count
open Verif Verif.IR Verif.Edit Verif.Guard
set_option linter.unusedSimpArgs false

theorem mem_jumps {rs : List Nat} {f : Fn} {x : Nat} : x ∈ jumps rs f ↔ ∃ b ∈ rs, x ∈ f.body b ∧ isJmp (f.insn x).op = true := by
  simp [jumps]

/-- A block has one jump at most. -/
theorem jump_unique {f : Fn} (hs : Shape f) {b x y : Nat} (hb : b ∈ f.allBbs) (hx : x ∈ f.body b) (hy : y ∈ f.body b) (jx : isJmp (f.insn x).op = true) (jy : isJmp (f.insn y).op = true) : x = y := by
  rw [ends_of_isJmp] at jx jy
  obtain ⟨A, B, hA⟩ := List.append_of_mem hx
  have h1 := hs.last b hb A x B hA jx
  subst h1
  rw [hA] at hy
  rcases List.mem_append.1 hy with h | h
  · obtain ⟨C, D, hC⟩ := List.append_of_mem h
    have := hs.last b hb C y (D ++ [x]) (by rw [hA, hC]; simp) jy
    simp at this
  · exact (List.mem_singleton.1 h).symm

theorem jumps_nodup {rs : List Nat} {f : Fn} (hs : Shape f) (hn : rs.Nodup) (hb : ∀ b ∈ rs, b ∈ f.allBbs) : (jumps rs f).Nodup := by
  unfold jumps
  induction rs with
  | nil => simp
  | cons b rs ih =>
    rw [List.flatMap_cons, List.nodup_append]
    have hn' := List.nodup_cons.1 hn
    refine ⟨(hs.tidy.nodup b (hb b (by simp))).filter _, ih hn'.2 (fun c hc => hb c (List.mem_cons_of_mem _ hc)), ?_⟩
    intro x hx y hy e
    subst e
    obtain ⟨c, hc, hy⟩ := List.mem_flatMap.1 hy
    have h1 := hs.tidy.parent b (hb b (by simp)) x (List.mem_filter.1 hx).1
    have h2 := hs.tidy.parent c (hb c (List.mem_cons_of_mem _ hc)) x (List.mem_filter.1 hy).1
    exact hn'.1 (by rw [← h1, h2]; exact hc)

theorem jmp_built {rs : List Nat} {f g : Fn} (hs : Shape f) (hph : phisOf f f.entry = []) (hn : rs.Nodup) (hin : ∀ b ∈ rs, b ∈ f.allBbs)
    (hne : jumps rs f ≠ []) (h : jmpComplexity rs f = .ok g) : ∃ f1 bs, Setup f f1 ∧ Built f1 f.next (const32 1) 100 bs g ∧
      (∀ b ∈ rs, ∀ x ∈ f.body b, isJmp (f.insn x).op = true → b ∈ bs) ∧ ∀ b ∈ bs, ∃ x ∈ f.body b, isJmp (f.insn x).op = true := by
  unfold jmpComplexity at h
  cases hj : jumps rs f with
  | nil => exact absurd hj hne
  | cons x0 xs0 =>
    rw [hj] at h
    dsimp only at h
    rw [← hj] at h
    obtain ⟨f1, h1, h2⟩ := Out.bind_eq_ok.1 h
    have U := setup_spec hs hph h1
    have hl : Live f1 f.next := .inr (.inr ⟨f.entry, by rw [U.allBbs]; exact hs.entry, by rw [U.bodyE]; simp⟩)
    have hpar : ∀ x ∈ jumps rs f, f.parent x ∈ rs ∧ x ∈ f.body (f.parent x) ∧ isJmp (f.insn x).op = true := by
      intro x hx
      obtain ⟨b, hb, hxb, hxj⟩ := mem_jumps.1 hx
      rw [hs.tidy.parent b (hin b hb) x hxb]
      exact ⟨hb, hxb, hxj⟩
    refine ⟨f1, (jumps rs f).map f.parent, U, bumpAll_built _ (jumps rs f) U.shape ?_ (by simp) ?_ hl h2, ?_, ?_⟩
    · rw [List.Nodup, List.pairwise_map]
      refine List.Pairwise.imp_of_mem ?_ (jumps_nodup hs hn hin)
      intro x y hx hy hxy e
      obtain ⟨a1, a2, a3⟩ := hpar x hx
      obtain ⟨b1, b2, b3⟩ := hpar y hy
      rw [← e] at b2
      exact hxy (jump_unique hs (hin _ a1) a2 b2 a3 b3)
    · intro p hp
      rw [List.zip_map_left, List.mem_map] at hp
      obtain ⟨q, hq, rfl⟩ := hp
      have hq1 := (List.of_mem_zip hq).1
      have hqe : q.1 = q.2 := by
        rw [List.zip_eq_zipWith] at hq
        obtain ⟨i, hi, e⟩ := List.getElem_of_mem hq
        simp at e
        rw [← e]
      obtain ⟨a1, a2, a3⟩ := hpar q.1 hq1
      simp only [Prod.map]
      refine ⟨by rw [U.allBbs]; exact hin _ a1, ?_, ?_⟩
      · show q.2 ∈ _
        rw [← hqe]
        by_cases he : f.parent q.1 = f.entry
        · rw [he] at a2 ⊢; rw [U.bodyE]; exact List.mem_cons_of_mem _ (List.mem_cons_of_mem _ a2)
        · rw [U.body _ he]; exact a2
      · show isJmp (f1.insn q.2).op = true
        rw [← hqe, U.insn _ (lt_of_body hs.tidy (hin _ a1) a2)]; exact a3
    · intro b hb x hx hxj
      exact List.mem_map.2 ⟨x, mem_jumps.2 ⟨b, hb, hx, hxj⟩, hs.tidy.parent b (hin b hb) x hx⟩
    · intro b hb
      obtain ⟨x, hx, e⟩ := List.mem_map.1 hb
      obtain ⟨_, h3, h4⟩ := hpar x hx
      exact ⟨x, by rw [← e]; exact h3, h4⟩

/-- An instruction of the old function is a jump. -/
def oldJump (f : Fn) (x : Nat) : Bool := decide (x < f.next) && isJmp (f.insn x).op

/-- Jumps of the old function stand alone in blocks behind counters. -/
theorem jump_alone {rs : List Nat} {f f1 g : Fn} {v : Val} {lim : BitVec 32} {bs : List Nat} (U : Setup f f1) (R : Built f1 f.next v lim bs g)
    (hr : ∀ b, Conn f b → b ∈ rs) (hb : ∀ b ∈ rs, ∀ x ∈ f.body b, isJmp (f.insn x).op = true → b ∈ bs) {c x : Nat} (hc : Conn g c) (hx : x ∈ g.body c) (hj : oldJump f x = true) :
    g.body c = [x] ∧ ∃ b ∈ bs, g.preds c = [b] := by
  unfold oldJump at hj
  simp only [Bool.and_eq_true, decide_eq_true_eq] at hj
  have hcm := Conn.mem R.shape hc
  have hgi : (g.insn x).op = (f.insn x).op := by rw [R.insn x (by rw [U.next]; omega), U.insn x hj.1]
  by_cases hcf : c ∈ f1.allBbs
  · exfalso
    by_cases hcb : c ∈ bs
    · obtain ⟨t, e, l, ad, s, j, N⟩ := R.sites c hcb
      obtain ⟨A, hA⟩ := N.site.body
      have hN1 := N.hl; have hN2 := N.had; have hN3 := N.hs; have hN4 := N.hj
      rw [U.next] at hN1 hN2 hN3 hN4
      rw [hA] at hx
      rcases List.mem_append.1 hx with h | h
      · obtain ⟨C, D, hC⟩ := List.append_of_mem h
        have := R.shape.last c hcm C x (D ++ [l, ad, s, j]) (by rw [hA, hC]; simp) (by rw [hgi, ← ends_of_isJmp]; exact hj.2)
        simp at this
      · simp at h; omega
    · rw [R.body c hcf hcb] at hx
      have hcc := conn_same U.succs U.entry ((R.conn U.shape hc).1 hcf)
      refine hcb (hb c (hr c hcc) x ?_ hj.2)
      by_cases he : c = f.entry
      · subst he
        rw [U.bodyE] at hx
        rcases List.mem_cons.1 hx with h | h
        · omega
        · rcases List.mem_cons.1 h with h | h
          · omega
          · exact h
      · rw [U.body c he] at hx; exact hx
  · obtain ⟨b, hb, hp, t, e, l, ad, s, j, N, h3⟩ := R.new c hcm hcf
    rcases h3 with rfl | rfl
    · obtain ⟨A, B, e1, e2, h4⟩ := N.split
      rcases h4 with ⟨_, h5⟩ | ⟨y, h5, _, _, h6, _⟩
      · exact absurd ((U.shape.graph.succs b N.inF).2 c (by rw [h5]; simp)) hcf
      · rw [h6] at hx
        rw [List.mem_singleton.1 hx]
        exact ⟨h6, b, hb, hp⟩
    · have := N.errBody x hx
      rw [U.next] at this
      omega

theorem jump_bound {W : World} {rs : List Nat} {f f1 g : Fn} {lim : BitVec 32} {bs : List Nat} (hs : Shape f) (hp : f.preds f.entry = []) (U : Setup f f1)
    (R : Built f1 f.next (const32 1) lim bs g) (hr : ∀ b, Conn f b → b ∈ rs) (hb : ∀ b ∈ rs, ∀ x ∈ f.body b, isJmp (f.insn x).op = true → b ∈ bs)
    (hw : 4 ≤ W.wid f.next) (hl : lim.toNat < 2 ^ 31) (σ : St) (m : Nat) :
    ((path W g m g.entry (g.body g.entry) σ).filter (oldJump f)).length ≤ lim.toNat := by
  have I : Inst g f.next (f.next + 1) lim bs := plain_inst (by decide) hs hp U R
  let P : Nat → List Nat → St → List Nat → List Nat → Nat → Prop := fun c r σ H _ _ =>
    (∃ A, g.body c = A ++ r) ∧ ((∃ T, Conn g c ∧ Phase g f.next (f.next + 1) lim bs T c r σ ∧ (H.filter (oldJump f)).length + (r.filter (oldJump f)).length ≤ T) ∨
      (InErr g r ∧ (H.filter (oldJump f)).length + (r.filter (oldJump f)).length ≤ lim.toNat))
  have hP : ∀ c r σ H B k c1 r1 τ, P c r σ H B k → IR.step W g c r σ = .goto c1 r1 τ → P c1 r1 τ (H ++ r.take 1) (B ++ if IR.leaves g r then [c1] else []) (k + 1) := by
    rintro c r σ H B k c1 r1 τ ⟨⟨A, hA⟩, h1⟩ hst
    rcases h1 with ⟨T, hc, p, h1⟩ | ⟨p, _⟩
    · obtain ⟨hc1, h6⟩ := I.step hw hl hc p hst
      have hcode : ∀ d, ∃ A, g.body d = A ++ codeOf g d := fun d => by
        obtain ⟨A, hA⟩ := List.dropWhile_suffix (fun x => (g.insn x).op == .phi) (l := g.body d)
        exact ⟨A, hA.symm⟩
      have hr1 : IR.leaves g r = true → r1 = codeOf g c1 := by
        intro hlv
        rcases step_cases hst with ⟨x, rfl, _, hpl, _⟩ | ⟨_, h, _⟩
        · rw [plain_leaves hpl] at hlv; cases hlv
        · exact h
      rcases h6 with ⟨hlv, rfl, p'⟩ | ⟨hlv, hnb, hsu, hr', p'⟩ | ⟨hlv, hcb, hsu, t, e, l, ad, s, j, v, S, rfl, h7⟩
      · rcases step_cases hst with ⟨x, rfl, _, hpl, _⟩ | ⟨w, _⟩
        · refine ⟨⟨A ++ [x], by rw [hA]; simp⟩, .inl ⟨T, hc1, p', ?_⟩⟩
          by_cases hx : oldJump f x = true
          · simp [List.filter_append, hx] at h1 ⊢; omega
          · simp [List.filter_append, hx] at h1 ⊢; omega
        · rw [Way.leaves w] at hlv; cases hlv
      · refine ⟨by rw [hr']; exact hcode c1, .inl ⟨T, hc1, p', ?_⟩⟩
        have h0 : r1.filter (oldJump f) = [] := by
          rw [List.filter_eq_nil_iff]
          intro x hx hj
          obtain ⟨_, b, hbb, hpr⟩ := jump_alone U R hr hb hc1 (by rw [hr'] at hx; exact mem_codeOf hx) hj
          have := (R.shape.graph.sym c (Conn.mem R.shape hc) c1 (Conn.mem R.shape hc1)).1 hsu
          rw [hpr] at this
          exact hnb (by rw [List.mem_singleton.1 this]; exact hbb)
        have h2 : ((r.take 1).filter (oldJump f)).length ≤ (r.filter (oldJump f)).length :=
          ((List.take_sublist 1 r).filter _).length_le
        rw [h0, List.filter_append, List.length_append]
        simp
        omega
      · obtain ⟨t', e', l', ad', s', j', N⟩ := R.sites c hcb
        have hss := N.site.succs
        rw [S.succs] at hss
        have he : e = e' := by simp at hss; exact hss.2
        have hj : j = j' := by
          obtain ⟨A1, e1⟩ := S.body
          obtain ⟨A2, e2⟩ := N.site.body
          rw [e1] at e2
          have := List.append_inj' e2 rfl
          simp at this
          exact this.2.2.2.2
        have hNj := N.hj
        rw [U.next] at hNj
        have hjf : oldJump f j = false := by
          unfold oldJump
          rw [decide_eq_false (by omega)]; rfl
        simp [List.filter_append, hjf] at h1
        refine ⟨by rw [hr1 hlv]; exact hcode c1, ?_⟩
        rcases h7 with ⟨_, hr', p'⟩ | ⟨hce, p'⟩
        · refine .inl ⟨T + 1, hc1, p', ?_⟩
          have h2 : (r1.filter (oldJump f)).length ≤ 1 := by
            cases hfl : r1.filter (oldJump f) with
            | nil => simp
            | cons x xs =>
              have hx : x ∈ r1.filter (oldJump f) := by rw [hfl]; simp
              obtain ⟨hx1, hx2⟩ := List.mem_filter.1 hx
              obtain ⟨hbd, _⟩ := jump_alone U R hr hb hc1 (by rw [hr'] at hx1; exact mem_codeOf hx1) hx2
              have : r1.length ≤ 1 := by
                rw [hr']
                have := (List.dropWhile_suffix (fun x => (g.insn x).op == .phi) (l := g.body c1)).length_le
                rw [hbd] at this
                unfold codeOf
                rw [hbd]
                simpa using this
              rw [← hfl]
              exact Nat.le_trans (List.length_filter_le ..) this
          simp [List.filter_append, hjf]
          omega
        · refine .inr ⟨p', ?_⟩
          have h0 : r1.filter (oldJump f) = [] := by
            rw [List.filter_eq_nil_iff]
            intro x hx hxj
            have := N.errBody x (by rw [← he, ← hce]; rw [hr1 hlv] at hx; exact mem_codeOf hx)
            rw [U.next] at this
            unfold oldJump at hxj
            simp at hxj
            omega
          rw [h0]
          have := p.le
          simp [List.filter_append, hjf]
          omega
    · exact absurd hst (p.step c1 r1 τ)
  have h0 : P g.entry (g.body g.entry) σ [] [] 0 := by
    refine ⟨⟨[], rfl⟩, .inl ⟨0, .entry, .start rfl rfl rfl, ?_⟩⟩
    have : (g.body g.entry).filter (oldJump f) = [] := by
      rw [List.filter_eq_nil_iff]
      intro x hx hj
      obtain ⟨_, b, _, hpr⟩ := jump_alone U R hr hb .entry hx hj
      rw [I.noPreds] at hpr
      cases hpr
    rw [this]; simp
  obtain ⟨c1, r1, τ, H1, k1, ⟨_, h5⟩, h6, _⟩ := hist_inv P hP m (H := []) (B := []) (k := 0) h0
  have hle : (H1.filter (oldJump f)).length + (r1.filter (oldJump f)).length ≤ lim.toNat := by
    rcases h5 with ⟨T, _, p, h5⟩ | ⟨_, h5⟩
    · exact Nat.le_trans h5 p.le
    · exact h5
  have h2 : ((r1.take 1).filter (oldJump f)).length ≤ (r1.filter (oldJump f)).length := ((List.take_sublist 1 r1).filter _).length_le
  rcases h6 with h6 | h6 <;> rw [List.nil_append] at h6 <;> rw [h6]
  · omega
  · rw [List.filter_append, List.length_append]; omega

end Verif.Count
