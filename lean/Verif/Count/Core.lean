import Verif.Count.Built
import Verif.IR.Hist
/-!
# The counter counts
-/
namespace Verif.Count
open Verif Verif.IR Verif.Edit Verif.Guard
set_option linter.unusedSimpArgs false

/-- Only a store to the variable changes it. -/
theorem exec_var {W : World} {x : Nat} {i : Insn} {σ τ : St} {a : Nat} (h : exec W x i σ = some τ) (hi : i.op = .store → i.vals.head? ≠ some (.insn a)) :
    τ.var a = σ.var a := by
  unfold exec at h
  split at h
  all_goals
    first
    | (rename_i hop
       split at h
       · rename_i a' v hv
         cases hy : eval σ v with
         | none => simp [hy] at h
         | some y =>
           simp [hy] at h
           subst h
           have := hi hop
           rw [hv] at this
           simp at this
           simp
           intro e; exact absurd e.symm this
       · cases h
       done)
    | (simp only [Option.bind_eq_bind, Option.bind_eq_some_iff, Option.some.injEq] at h
       first
       | (subst h; rfl)
       | (obtain ⟨_, _, h⟩ := h; subst h; rfl)
       | (obtain ⟨_, _, _, _, h⟩ := h; subst h; rfl))
    | (split at h
       · simp only [Option.bind_eq_bind, Option.bind_eq_some_iff, Option.some.injEq] at h
         first
         | (subst h; rfl)
         | (obtain ⟨_, _, h⟩ := h; subst h; rfl)
         | (obtain ⟨_, _, _, _, h⟩ := h; subst h; rfl)
         | (obtain ⟨_, _, _, _, _, _, h⟩ := h; subst h; rfl)
         | (obtain ⟨_, _, _, _, _, _, _, _, h⟩ := h; subst h; rfl)
       · cases h)

/-- A function with a counter variable `a`, set to zero at the start, and counters in the blocks `bs`. -/
structure Inst (h : Fn) (a s0 : Nat) (lim : BitVec 32) (bs : List Nat) : Prop where
  shape : Shape h
  alloc : h.insn a = mkAlloc .t32
  init : h.insn s0 = mkStore a (const32 0)
  body : ∃ R, h.body h.entry = a :: s0 :: R
  noPreds : h.preds h.entry = []
  sites : ∀ b ∈ bs, Conn h b → ∃ t e l ad s j k c ct bi, Site h a b t e l ad s j (.const k c ct bi) lim ∧ 1 ≤ c.toNat ∧ c.toNat < 2 ^ 32
  stores : ∀ x, InBody h x → (h.insn x).op = .store → (h.insn x).vals.head? = some (.insn a) → x = s0 ∨ ∃ b ∈ bs, ∃ t e l ad s j v, Site h a b t e l ad s j v lim ∧ x = s

/-- Where an execution is, and how often (`T`) it has passed a counter. -/
inductive Phase (h : Fn) (a s0 : Nat) (lim : BitVec 32) (bs : List Nat) (T c : Nat) (r : List Nat) (σ : St) : Prop
  | start : c = h.entry → r = h.body h.entry → T = 0 → Phase h a s0 lim bs T c r σ
  | alloced {R} : c = h.entry → h.body h.entry = a :: s0 :: R → r = s0 :: R → T = 0 → Phase h a s0 lim bs T c r σ
  | out : (∃ A, h.body c = A ++ r ∧ s0 ∉ r) → (c ∈ bs → ∃ A t e l ad s j v, r = A ++ [l, ad, s, j] ∧ Site h a c t e l ad s j v lim) →
      (σ.var a).toNat ≤ lim.toNat → T ≤ (σ.var a).toNat → Phase h a s0 lim bs T c r σ
  | p1 {t e l ad s j k x ct bi} : c ∈ bs → Site h a c t e l ad s j (.const k x ct bi) lim → 1 ≤ x.toNat → x.toNat < 2 ^ 32 → r = [ad, s, j] → σ.env l = σ.var a →
      (σ.var a).toNat ≤ lim.toNat → T ≤ (σ.var a).toNat → Phase h a s0 lim bs T c r σ
  | p2 {t e l ad s j v} : c ∈ bs → Site h a c t e l ad s j v lim → r = [s, j] → T ≤ lim.toNat → T + 1 ≤ (σ.env ad).toNat → Phase h a s0 lim bs T c r σ
  | p3 {t e l ad s j v} : c ∈ bs → Site h a c t e l ad s j v lim → r = [j] → T ≤ lim.toNat → T + 1 ≤ (σ.env ad).toNat → σ.var a = σ.env ad →
      Phase h a s0 lim bs T c r σ

theorem Phase.le {h : Fn} {a s0 : Nat} {lim : BitVec 32} {bs : List Nat} {T c : Nat} {r : List Nat} {σ : St} (p : Phase h a s0 lim bs T c r σ) : T ≤ lim.toNat := by
  cases p <;> omega

/-- In the error block. -/
def InErr (h : Fn) (r : List Nat) : Prop := ∃ th, r = [th] ∧ h.insn th = mkThrow

theorem Way.succ {f : Fn} (hs : Shape f) {c c1 : Nat} {σ : St} {r : List Nat} (hc : c ∈ f.allBbs) (hr : ∀ x ∈ r, x ∈ f.body c) (w : Way f c σ r c1) : c1 ∈ f.succs c := by
  cases w with
  | fall h => rw [h]; simp
  | ja h => exact (hs.wired c hc _ (hr _ (List.mem_cons_self ..))).1 h
  | no h _ => exact ((hs.wired c hc _ (hr _ (List.mem_cons_self ..))).2 h).1
  | yes h _ => exact ((hs.wired c hc _ (hr _ (List.mem_cons_self ..))).2 h).2

theorem Way.leaves {f : Fn} {c c1 : Nat} {σ : St} {r : List Nat} (w : Way f c σ r c1) : leaves f r = true := by
  cases w with
  | fall h => rfl
  | ja h => simp [IR.leaves, h, ends]
  | no h _ => generalize ho : (f.insn _).op = o at h; simp only [IR.leaves, ho]; cases o <;> simp_all [ends, Norm.Op.condJmp]
  | yes h _ => generalize ho : (f.insn _).op = o at h; simp only [IR.leaves, ho]; cases o <;> simp_all [ends, Norm.Op.condJmp]

theorem plain_leaves {f : Fn} {x : Nat} {r : List Nat} (h : plain (f.insn x).op = true) : IR.leaves f (x :: r) = false := by
  generalize ho : (f.insn x).op = o at h
  simp only [IR.leaves, ho]; cases o <;> simp_all [ends, plain, straight, Norm.Op.condJmp]

theorem Site.code {h : Fn} {a b t e l ad s j : Nat} {v : Val} {lim : BitVec 32} (S : Site h a b t e l ad s j v lim) :
    ∃ A, codeOf h b = A ++ [l, ad, s, j] := by
  obtain ⟨A, hA⟩ := S.body
  unfold codeOf
  rw [hA, dropWhile_split]
  split
  · exact ⟨[], by simp [List.dropWhile_cons, S.load, mkLoad]⟩
  · exact ⟨_, rfl⟩

theorem trunc_small {n : Nat} {v : BitVec 64} (hn : 4 ≤ n) (hv : v.toNat < 2 ^ 32) : Flat.truncBytes n v = v := by
  unfold Flat.truncBytes
  apply BitVec.eq_of_toNat_eq
  rw [BitVec.toNat_setWidth, BitVec.toNat_setWidth]
  have h1 : v.toNat < 2 ^ (8 * n) := Nat.lt_of_lt_of_le hv (Nat.pow_le_pow_right (by omega) (by omega))
  rw [Nat.mod_eq_of_lt h1, Nat.mod_eq_of_lt v.isLt]

theorem Inst.step {W : World} {h : Fn} {a s0 : Nat} {lim : BitVec 32} {bs : List Nat} (I : Inst h a s0 lim bs) (hw : 4 ≤ W.wid a) (hl : lim.toNat < 2 ^ 31)
    {T c c1 : Nat} {r r1 : List Nat} {σ τ : St} (hc : Conn h c) (p : Phase h a s0 lim bs T c r σ) (hst : step W h c r σ = .goto c1 r1 τ) :
    Conn h c1 ∧ ((IR.leaves h r = false ∧ c1 = c ∧ Phase h a s0 lim bs T c1 r1 τ) ∨
      (IR.leaves h r = true ∧ c ∉ bs ∧ c1 ∈ h.succs c ∧ r1 = codeOf h c1 ∧ Phase h a s0 lim bs T c1 r1 τ) ∨
      (IR.leaves h r = true ∧ c ∈ bs ∧ c1 ∈ h.succs c ∧ (∃ t e l ad s j v, Site h a c t e l ad s j v lim ∧ r = [j] ∧
        (c1 = t ∧ r1 = codeOf h c1 ∧ Phase h a s0 lim bs (T + 1) c1 r1 τ ∨ c1 = e ∧ InErr h r1)))) := by
  have hs := I.shape
  have hcm := Conn.mem hs hc
  have huniq : ∀ {b x}, b ∈ h.allBbs → x ∈ h.body b → x ∈ h.body c → b = c := fun hb h1 h2 => by
    rw [← hs.tidy.parent _ hb _ h1, hs.tidy.parent c hcm _ h2]
  obtain ⟨R, hR⟩ := I.body
  have hndE := hs.tidy.nodup h.entry hs.entry
  -- entering a block
  have hne : ∀ {d}, d ∈ h.succs c → d ≠ h.entry := by
    intro d hd e
    have := (hs.graph.sym c hcm d ((hs.graph.succs c hcm).2 d hd)).1 hd
    rw [e, I.noPreds] at this
    cases this
  have hent : ∀ {d τ' T'}, d ∈ h.succs c → (τ'.var a).toNat ≤ lim.toNat → T' ≤ (τ'.var a).toNat → Phase h a s0 lim bs T' d (codeOf h d) τ' := by
    intro d τ' T' hd h1 h2
    have hdm := (hs.graph.succs c hcm).2 d hd
    obtain ⟨A, hA⟩ := List.dropWhile_suffix (fun x => (h.insn x).op == .phi) (l := h.body d)
    refine .out ⟨A, hA.symm, ?_⟩ ?_ h1 h2
    · intro hx
      have hx' : s0 ∈ h.body d := mem_codeOf hx
      have : d = h.entry := by
        rw [← hs.tidy.parent d hdm s0 hx', hs.tidy.parent h.entry hs.entry s0 (by rw [hR]; simp)]
      exact hne hd this
    · intro hb
      obtain ⟨t, e, l, ad, s, j, k, x, ct, bi, S, _⟩ := I.sites d hb (.step hc hd)
      obtain ⟨A, hA⟩ := S.code
      exact ⟨A, t, e, l, ad, s, j, _, hA, S⟩
  cases p with
  | start h1 h2 h3 =>
    subst h2; subst h1; rw [hR] at hst ⊢
    rcases step_cases hst with ⟨x, hx, rfl, hpl, hex⟩ | ⟨w, _⟩
    · cases hx
      refine ⟨hc, .inl ⟨plain_leaves hpl, rfl, ?_⟩⟩
      exact .alloced rfl hR rfl h3
    · have := Way.leaves w
      simp [IR.leaves, I.alloc, mkAlloc, ends] at this
  | alloced h1 h2 h3 h4 =>
    rename_i R'
    subst h1; subst h3
    rcases step_cases hst with ⟨x, hx, rfl, hpl, hex⟩ | ⟨w, _⟩
    · cases hx
      refine ⟨hc, .inl ⟨plain_leaves hpl, rfl, ?_⟩⟩
      have hv : τ.var a = 0 := by
        rw [I.init] at hex
        simp [exec, mkStore, const32, eval] at hex
        rw [← hex]; simp
      rw [h2] at hndE
      refine .out ⟨[a, s0], h2, ?_⟩ ?_ (by rw [hv]; simp) (by rw [hv, h4]; simp)
      · have := (List.nodup_cons.1 (List.nodup_cons.1 hndE).2).1
        exact this
      · intro hb
        obtain ⟨t, e, l, ad, s, j, k, x, ct, bi, S, _⟩ := I.sites _ hb hc
        obtain ⟨A, hA⟩ := S.body
        rw [h2] at hA
        match A, hA with
        | [], hA =>
          have : a = l := by simp at hA; exact hA.1
          have := S.load; rw [← ‹a = l›, I.alloc] at this; simp [mkAlloc, mkLoad] at this
        | [_], hA =>
          have : s0 = l := by simp at hA; exact hA.2.1
          have := S.load; rw [← ‹s0 = l›, I.init] at this; simp [mkStore, mkLoad] at this
        | _ :: _ :: A, hA =>
          have : r1 = A ++ [l, ad, s, j] := by simp at hA; exact hA.2.2
          exact ⟨A, t, e, l, ad, s, j, _, this, S⟩
    · have := Way.leaves w
      simp [IR.leaves, I.init, mkStore, ends] at this
  | out h1 h2 h3 h4 =>
    obtain ⟨A, hA, hs0⟩ := h1
    rcases step_cases hst with ⟨x, hx, rfl, hpl, hex⟩ | ⟨w, rfl, en, he, rfl⟩
    · subst hx
      refine ⟨hc, .inl ⟨plain_leaves hpl, rfl, ?_⟩⟩
      have hxb : x ∈ h.body c1 := by rw [hA]; simp
      by_cases hb : c1 ∈ bs
      · obtain ⟨A', t, e, l, ad, s, j, v, hr, S⟩ := h2 hb
        cases A' with
        | nil =>
          cases hr
          obtain ⟨t', e', l', ad', s', j', k', v', ct', bi', S', hv1, hv2⟩ := I.sites _ hb hc
          have hsame : l' = x ∧ ad' = ad ∧ s' = s ∧ j' = j := by
            obtain ⟨A1, e1⟩ := S.body
            obtain ⟨A2, e2⟩ := S'.body
            rw [e1] at e2
            have := List.append_inj' e2 rfl
            simp at this
            exact ⟨this.2.1.symm, this.2.2.1.symm, this.2.2.2.1.symm, this.2.2.2.2.symm⟩
          obtain ⟨rfl, rfl, rfl, rfl⟩ := hsame
          rw [S.load] at hex
          simp [exec, mkLoad, trunc_small hw (v := σ.var a) (by omega)] at hex
          subst hex
          exact .p1 hb S' hv1 hv2 rfl (by simp [St.set]) h3 h4
        | cons y A'' =>
          cases hr
          have hva : τ.var a = σ.var a := by
            refine exec_var hex (fun hop hh => ?_)
            rcases I.stores x ⟨c1, hcm, hxb⟩ hop hh with h5 | ⟨b', hb', t', e', l', ad', s', j', v', S', h5⟩
            · exact hs0 (by rw [h5]; simp)
            · have : b' = c1 := huniq S'.inB (by obtain ⟨A1, e1⟩ := S'.body; rw [e1, h5]; simp) hxb
              subst this
              have hnd := hs.tidy.nodup b' hcm
              obtain ⟨A1, e1⟩ := S.body
              obtain ⟨A2, e2⟩ := S'.body
              rw [e1] at e2
              have := List.append_inj' e2 rfl
              simp at this
              have hss : s = x := by rw [h5, this.2.2.2.1]
              rw [hA, hss] at hnd
              have := (List.nodup_append.1 hnd).2.1
              exact (List.nodup_cons.1 this).1 (by simp)
          refine .out ⟨A ++ [x], by rw [hA]; simp, fun hh => hs0 (List.mem_cons_of_mem _ hh)⟩ (fun _ => ⟨A'', t, e, l, ad, s, j, v, rfl, S⟩) (by rw [hva]; exact h3) (by rw [hva]; exact h4)
      · have hva : τ.var a = σ.var a := by
          refine exec_var hex (fun hop hh => ?_)
          rcases I.stores x ⟨c1, hcm, hxb⟩ hop hh with h5 | ⟨b', hb', t', e', l', ad', s', j', v', S', h5⟩
          · exact hs0 (by rw [h5]; simp)
          · have : b' = c1 := huniq S'.inB (by obtain ⟨A1, e1⟩ := S'.body; rw [e1, h5]; simp) hxb
            exact hb (this ▸ hb')
        refine .out ⟨A ++ [x], by rw [hA]; simp, fun hh => hs0 (List.mem_cons_of_mem _ hh)⟩ (fun hb' => absurd hb' hb) (by rw [hva]; exact h3) (by rw [hva]; exact h4)
    · have hsub : ∀ x ∈ r, x ∈ h.body c := fun x hx => by rw [hA]; exact List.mem_append_right _ hx
      have hsucc := Way.succ hs hcm hsub w
      have hlv := Way.leaves w
      refine ⟨.step hc hsucc, .inr (.inl ⟨hlv, ?_, hsucc, rfl, ?_⟩)⟩
      · intro hb
        obtain ⟨A', t, e, l, ad, s, j, v, hr, S⟩ := h2 hb
        cases A' with
        | nil => rw [hr] at hlv; simp [IR.leaves, S.load, mkLoad, ends] at hlv
        | cons y A'' =>
          rw [hr] at hlv hA
          have hlv' : ends (h.insn y).op = true := by simpa [IR.leaves] using hlv
          have := hs.last c hcm A y _ (by rw [hA]; rfl) hlv'
          simp at this
      · exact hent hsucc h3 h4
  | p1 hb S hv1 hv2 hr he h3 h4 =>
    rename_i t e l ad s j k x ct bi
    subst hr
    rcases step_cases hst with ⟨y, hx, rfl, hpl, hex⟩ | ⟨w, _⟩
    · cases hx
      refine ⟨hc, .inl ⟨plain_leaves hpl, rfl, ?_⟩⟩
      rw [S.add] at hex
      simp [exec, mkBin, Flat.aluOp, Flat.width, eval] at hex
      subst hex
      refine .p2 hb S rfl (by omega) ?_
      simp only [St.set, if_true, Bpf.alu, he]
      simp [Bpf.aluW]
      rw [Nat.mod_eq_of_lt (by omega)]
      omega
    · have := Way.leaves w
      simp [IR.leaves, S.add, mkBin, ends] at this
  | p2 hb S hr h3 h4 =>
    rename_i t e l ad s j v
    subst hr
    rcases step_cases hst with ⟨y, hx, rfl, hpl, hex⟩ | ⟨w, _⟩
    · cases hx
      refine ⟨hc, .inl ⟨plain_leaves hpl, rfl, ?_⟩⟩
      rw [S.store] at hex
      simp [exec, mkStore, eval] at hex
      subst hex
      exact .p3 hb S rfl h3 h4 (by simp)
    · have := Way.leaves w
      simp [IR.leaves, S.store, mkStore, ends] at this
  | p3 hb S hr h3 h4 h5 =>
    rename_i t e l ad s j v
    subst hr
    obtain ⟨A, hA⟩ := S.body
    rcases step_cases hst with ⟨y, hx, rfl, hpl, hex⟩ | ⟨w, rfl, en, he, rfl⟩
    · cases hx
      rw [S.jump] at hpl
      simp [mkJbin, plain, straight, Norm.Op.condJmp] at hpl
    · have hsucc := Way.succ hs hcm (fun x hx => by rw [hA]; rw [List.mem_singleton.1 hx]; simp) w
      refine ⟨.step hc hsucc, .inr (.inr ⟨Way.leaves w, hb, hsucc, t, e, l, ad, s, j, v, S, rfl, ?_⟩)⟩
      have hlim : (lim.signExtend 64).toNat = lim.toNat := by
        rw [BitVec.toNat_signExtend, BitVec.msb_eq_false_iff_two_mul_lt.2 (by omega)]
        simp
        omega
      cases w with
      | ja h => rw [S.jump] at h; simp [mkJbin] at h
      | no _ ht =>
        left
        rw [S.jump] at ht hsucc ⊢
        refine ⟨rfl, rfl, ?_⟩
        have : (σ.env ad).toNat ≤ lim.toNat := by
          simp [taken, mkJbin, const32, Flat.condOp, Flat.width, eval, Bpf.cond, Bpf.condW] at ht
          simp only [BitVec.ult, decide_eq_false_iff_not, hlim] at ht
          omega
        refine hent hsucc ?_ ?_
        · show (σ.var a).toNat ≤ _
          rw [h5]; exact this
        · show _ ≤ (σ.var a).toNat
          rw [h5]; exact h4
      | yes _ ht =>
        right
        rw [S.jump]
        obtain ⟨th, hth, hti⟩ := S.err
        refine ⟨rfl, th, ?_, hti⟩
        show codeOf h e = _
        unfold codeOf
        rw [hth]
        simp [List.dropWhile_cons, hti, mkThrow]

/-- The error block is left by the throw. -/
theorem InErr.step {W : World} {h : Fn} {c : Nat} {r : List Nat} {σ : St} (p : InErr h r) : ∀ c1 r1 τ, step W h c r σ ≠ .goto c1 r1 τ := by
  obtain ⟨th, rfl, ht⟩ := p
  intro c1 r1 τ hst
  simp [IR.step, ht, mkThrow, Norm.Op.condJmp] at hst

end Verif.Count
