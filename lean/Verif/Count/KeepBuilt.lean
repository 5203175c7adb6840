import Verif.Count.Keep
import Verif.Count.Lemmas
/-!
# The counters of the passes
-/
namespace Verif.Count
open Verif Verif.IR Verif.Edit Verif.Guard
set_option linter.unusedSimpArgs false

/-- The counter of block `b`, and the old block. -/
theorem Built.spot {f f1 g : Fn} {v : Val} {lim : BitVec 32} {bs : List Nat} (hs : Shape f) (U : Setup f f1) (R : Built f1 f.next v lim bs g)
    {b t e l ad s j : Nat} (N : New f1 g f.next v lim b t e l ad s j) :
    ∃ A B, f.body b = A ++ B ∧ g.body b = (if b = f.entry then [f.next, f.next + 1] else []) ++ A ++ [l, ad, s, j] ∧ (∀ x ∈ A, ends (f.insn x).op = false) ∧
      ((B = [] ∧ f.succs b = [t]) ∨ ∃ x, B = [x] ∧ ends (f.insn x).op = true ∧ t ∉ f.allBbs ∧ t ∈ g.allBbs ∧ g.body t = [x] ∧ g.preds t = [b]) := by
  have hbf : b ∈ f.allBbs := by rw [← U.allBbs]; exact N.inF
  obtain ⟨A1, B, e1, e2, h3⟩ := N.split
  have hcase : B = [] ∨ ∃ x, B = [x] ∧ isJmp (f1.insn x).op = true := by
    rcases h3 with ⟨h, _⟩ | ⟨x, h, h', _⟩
    · exact .inl h
    · exact .inr ⟨x, h, h'⟩
  have hold : ∃ A, f.body b = A ++ B ∧ A1 = (if b = f.entry then [f.next, f.next + 1] else []) ++ A := by
    by_cases he : b = f.entry
    · rw [if_pos he]
      rw [he, U.bodyE] at e1
      rw [he]
      match A1, e1 with
      | [], e1 =>
        rcases hcase with rfl | ⟨x, rfl, h'⟩ <;> simp at e1
      | [y], e1 =>
        rcases hcase with rfl | ⟨x, rfl, h'⟩
        · simp at e1
        · simp at e1
          rw [← e1.2.1, U.store] at h'
          simp [mkStore, isJmp, Norm.Op.condJmp] at h'
      | y :: z :: A, e1 =>
        simp at e1
        exact ⟨A, e1.2.2, by rw [e1.2.1, e1.1]; rfl⟩
    · rw [if_neg he]
      rw [U.body b he] at e1
      exact ⟨A1, e1, rfl⟩
  obtain ⟨A, h4, h5⟩ := hold
  have hlt : ∀ x ∈ f.body b, x < f.next := fun x hx => lt_of_body hs.tidy hbf hx
  have hi : ∀ x ∈ f.body b, f1.insn x = f.insn x ∧ g.insn x = f.insn x := fun x hx => by
    have := hlt x hx
    exact ⟨U.insn x this, by rw [R.insn x (by rw [U.next]; omega), U.insn x this]⟩
  refine ⟨A, B, h4, by rw [e2, h5], ?_, ?_⟩
  · intro x hx
    cases he : ends (f.insn x).op with
    | false => rfl
    | true =>
      obtain ⟨P, Q, hPQ⟩ := List.append_of_mem (show x ∈ A1 by rw [h5]; exact List.mem_append_right _ hx)
      have := R.shape.last b N.site.inB P x (Q ++ [l, ad, s, j]) (by rw [e2, hPQ]; simp) (by rw [(hi x (by rw [h4]; exact List.mem_append_left _ hx)).2]; exact he)
      simp at this
  · rcases h3 with ⟨h6, h7⟩ | ⟨x, h6, h7, h8, h9, h10⟩
    · exact .inl ⟨h6, by rw [← U.succs]; exact h7⟩
    · refine .inr ⟨x, h6, ?_, by rw [← U.allBbs]; exact h8, (R.shape.graph.succs b N.site.inB).2 t (by rw [N.site.succs]; simp), h9, h10⟩
      rw [← (hi x (by rw [h4, h6]; simp)).1, ← ends_of_isJmp]; exact h7

variable {f f1 g h : Fn} {v : Val} {lim : BitVec 32} {bs : List Nat}

/-- Where the last instruction of an old block is. -/
theorem Built.nowAt (hs : Shape f) (U : Setup f f1) (R : Built f1 f.next v lim bs g) (hpar : h.parent = g.parent) :
    (∀ c ∈ f.allBbs, c ∉ bs → nowAt f h c = c) ∧
    ∀ b ∈ bs, ∀ t e l ad s j A B, New f1 g f.next v lim b t e l ad s j → f.body b = A ++ B →
      g.body b = (if b = f.entry then [f.next, f.next + 1] else []) ++ A ++ [l, ad, s, j] →
      (B = [] → nowAt f h b = b) ∧ (∀ x, B = [x] → t ∈ g.allBbs → g.body t = [x] → nowAt f h b = t) := by
  constructor
  · intro c hc hb
    have hc1 : c ∈ f1.allBbs := by rw [U.allBbs]; exact hc
    unfold Count.nowAt
    split
    · rfl
    · rename_i x hx
      rw [hpar]
      refine R.shape.tidy.parent c (R.sub c hc1) x ?_
      rw [R.body c hc1 hb]
      have := List.mem_of_getLast? hx
      by_cases he : c = f.entry
      · rw [he] at this ⊢; rw [U.bodyE]; simp [this]
      · rw [U.body c he]; exact this
  · intro b hb t e l ad s j A B N h1 h2
    constructor
    · intro hB
      unfold Count.nowAt
      split
      · rfl
      · rename_i x hx
        rw [hpar]
        refine R.shape.tidy.parent b N.site.inB x ?_
        rw [h1, hB, List.append_nil] at hx
        rw [h2]
        simp [List.mem_of_getLast? hx]
    · intro x hB ht hbt
      unfold Count.nowAt
      rw [h1, hB]
      simp only [List.getLast?_append, List.getLast?_singleton, Option.some_or]
      rw [hpar]
      exact R.shape.tidy.parent t ht x (by rw [hbt]; simp)

theorem kept_of {cost : Nat → Nat} (hs : Shape f) (hp : f.preds f.entry = []) (U : Setup f f1) (R : Built f1 f.next v lim bs g)
    (hh : ∃ i, h = { g with insn := i }) (hsh : Shape h) (hi : ∀ b ∈ f.allBbs, ∀ x ∈ f.body b, h.insn x = f.insn x)
    (hsite : ∀ b ∈ bs, Conn h b → ∃ t e l ad s j k c ct bi, New f1 g f.next v lim b t e l ad s j ∧ Site h f.next b t e l ad s j (.const k c ct bi) lim ∧
      c.toNat < 2 ^ 32 ∧ c.toNat ≤ cost b) :
    Kept f (relabel f h) lim cost bs (nowAt f h) := by
  obtain ⟨i, e⟩ := hh
  have hpar : h.parent = g.parent := by rw [e]
  have hbody : h.body = g.body := by rw [e]
  have hsuc : h.succs = g.succs := by rw [e]
  obtain ⟨n1, n2⟩ := R.nowAt hs U hpar
  have hcn : ∀ {b}, Conn (relabel f h) b → Conn h b := fun hb => conn_same (by rfl) (by rfl) hb
  have hcase : ∀ c ∈ f.allBbs, nowAt f h c = c ∨ (nowAt f h c ∉ f.allBbs ∧ g.preds (nowAt f h c) = [c]) := by
    intro c hc
    by_cases hb : c ∈ bs
    · obtain ⟨t, e, l, ad, s, j, N⟩ := R.sites c hb
      obtain ⟨A, B, h1, h2, h3, h4⟩ := R.spot hs U N
      rcases h4 with ⟨h5, h6⟩ | ⟨x, h5, h6, h7, h8, h9, h10⟩
      · exact .inl ((n2 c hb t e l ad s j A B N h1 h2).1 h5)
      · right
        rw [(n2 c hb t e l ad s j A B N h1 h2).2 x h5 h8 h9]
        exact ⟨h7, h10⟩
    · exact .inl (n1 c hc hb)
  refine ⟨hs, hp, ?_, ?_, ?_, ?_, ?_, ?_, n1, ?_⟩
  · intro b hb x hx
    show relab _ (h.insn x) = _
    rw [hi b hb x hx]
  · intro c hc hb he
    show h.body c = _
    rw [hbody, R.body c (by rw [U.allBbs]; exact hc) hb, U.body c he]
  · intro c hc hb
    show h.succs c = _
    rw [hsuc, R.succs c (by rw [U.allBbs]; exact hc) hb, U.succs]
  · exact fun c hc => Conn.mem hsh (hcn hc)
  · exact hsh.wired
  · intro b hb hc
    obtain ⟨t, e, l, ad, s, j, k, c, ct, bi, N, S, h1, h2⟩ := hsite b hb (hcn hc)
    obtain ⟨A, B, h3, h4, h5, h6⟩ := R.spot hs U N
    have hnx := U.next
    have hl := N.hl; have had := N.had
    have hrel : ∀ x, (relabel f h).insn x = relab (nowAt f h) (h.insn x) := fun _ => rfl
    refine ⟨t, e, l, ad, s, j, c, A, B, ?_, ⟨k, ct, bi, ?_⟩, ?_, ?_, by omega, by omega, h1, h2, S.succs, ?_, h3, h5, ?_, ?_, ?_⟩
    · rw [hrel, S.load]; rfl
    · rw [hrel, S.add]; rfl
    · rw [hrel, S.store]; rfl
    · rw [hrel, S.jump]; rfl
    · obtain ⟨th, h7, h8⟩ := S.err
      exact ⟨th, h7, by rw [hrel, h8]; rfl⟩
    · intro hne
      rw [if_neg hne, List.nil_append] at h4
      show h.body b = _
      rw [hbody, h4]
    · intro he
      rw [if_pos he] at h4
      show h.body b = _
      rw [hbody, h4]; simp
    · rcases h6 with ⟨h7, h8⟩ | ⟨x, h7, h8, h9, h10, h11, h12⟩
      · exact .inl ⟨h7, h8, (n2 b hb t e l ad s j A B N h3 h4).1 h7⟩
      · exact .inr ⟨x, h7, h8, by show h.body t = _; rw [hbody, h11], (n2 b hb t e l ad s j A B N h3 h4).2 x h7 h10 h11⟩
  · intro c hc d hd hcd
    rcases hcase c hc with h1 | ⟨h1, h2⟩ <;> rcases hcase d hd with h3 | ⟨h3, h4⟩
    · rw [← h1, hcd, h3]
    · rw [← hcd, h1] at h3; exact absurd hc h3
    · rw [hcd, h3] at h1; exact absurd hd h1
    · rw [hcd, h4] at h2
      cases h2; rfl

/-- The execution of the new function gets to where the old one starts. -/
theorem start_rel {cost : Nat → Nat} {W : World} (hs : Shape f) (U : Setup f f1) (R : Built f1 f.next v lim bs g) (hh : ∃ i, h = { g with insn := i })
    (halloc : h.insn f.next = mkAlloc .t32) (hst : h.insn (f.next + 1) = mkStore f.next (const32 0)) (K : Kept f (relabel f h) lim cost bs (nowAt f h)) (σ : St) :
    ∃ r' τ, (∀ n, runFn W (relabel f h) (n + 2) σ = run W (relabel f h) n f.entry r' τ) ∧ Rel f (relabel f h) lim cost bs (nowAt f h) 0 f.entry (f.body f.entry) r' σ τ := by
  obtain ⟨i, e⟩ := hh
  have hbody : h.body = g.body := by rw [e]
  have hE : f.entry ∈ f1.allBbs := by rw [U.allBbs]; exact hs.entry
  have hent : (relabel f h).entry = f.entry := by
    show h.entry = _
    rw [e, R.entry, U.entry]
  have hconn : Conn (relabel f h) f.entry := by rw [← hent]; exact .entry
  let τ : St := St.mk σ.env (fun z => if z = f.next then 0 else σ.var z) σ.mem σ.trace
  have key : ∀ r', (relabel f h).body f.entry = f.next :: (f.next + 1) :: r' → ∀ n, runFn W (relabel f h) (n + 2) σ = run W (relabel f h) n f.entry r' τ := by
    intro r' hr' n
    have i1 : (relabel f h).insn f.next = mkAlloc .t32 := by show relab _ (h.insn _) = _; rw [halloc]; rfl
    have i2 : (relabel f h).insn (f.next + 1) = mkStore f.next (const32 0) := by show relab _ (h.insn _) = _; rw [hst]; rfl
    unfold runFn
    rw [hent, hr']
    have h1 : IR.step W (relabel f h) f.entry (f.next :: (f.next + 1) :: r') σ = .goto f.entry ((f.next + 1) :: r') σ := by
      simp [IR.step, i1, mkAlloc, Norm.Op.condJmp, exec]
    have h2 : IR.step W (relabel f h) f.entry ((f.next + 1) :: r') σ = .goto f.entry r' τ := by
      simp [IR.step, i2, mkStore, const32, Norm.Op.condJmp, exec, eval, τ]
    simp only [run, h1, h2]
  have hA : Old f σ τ := ⟨fun _ _ => rfl, fun y hy => by simp only [τ]; rw [if_neg (by omega)], rfl, rfl⟩
  have h0 : (τ.var f.next).toNat = 0 := by simp [τ]
  by_cases hb : f.entry ∈ bs
  · obtain ⟨t, e', l, ad, s, j, c, A, B, S⟩ := K.site _ hb hconn
    exact ⟨A ++ [l, ad, s, j], τ, key _ (S.start rfl), hconn, hs.entry, List.suffix_refl _, hA, by omega, by omega,
      .inr ⟨hb, t, e', l, ad, s, j, c, A, B, A, S, S.old, rfl⟩⟩
  · refine ⟨f.body f.entry, τ, key _ ?_, hconn, hs.entry, List.suffix_refl _, hA, by omega, by omega, .inl ⟨hb, rfl, ?_⟩⟩
    · show h.body _ = _
      rw [hbody, R.body _ hE hb, U.bodyE]
    · intro x hx
      show x ∈ h.body _
      rw [hbody, R.body _ hE hb, U.bodyE]; simp [hx]

end Verif.Count
