import Verif.Lift.Accept
/-!
# A lifted program reads no register before it is written
-/
namespace Verif.Lift
open Verif Verif.Bpf Verif.IR Verif.GenBB
set_option linter.unusedSimpArgs false
set_option linter.unusedVariables false

variable {P : List Slot} {C : List Blk} {g : Gh} {s : LSt}

/-- What an accepted instruction reads and writes. -/
theorem plan_regs {defd : Nat → Bool} {q : PreInsn} {i : Instr} {a : Act} (hd : decode q.slot = some i) (h6 : i ≠ .call 6) (hp : plan C defd q = .ok a) :
    Supported i ∧ a.regs = reads i ∧ a.dst = writes i := by
  rw [plan_decode C defd q hd] at hp
  cases i with
  | alu w op d src =>
    unfold planI at hp
    dsimp only at hp
    split at hp
    · rename_i ho
      cases hp
      exact ⟨trivial, by simp [Act.regs, reads, ho, opd_regs], rfl⟩
    · rename_i ho
      cases hp
      exact ⟨trivial, by simp [Act.regs, reads, ho, opd_regs, opdRegs_reg], rfl⟩
  | neg w d => cases hp; exact ⟨trivial, rfl, rfl⟩
  | swap be d w => cases hp; exact ⟨trivial, rfl, rfl⟩
  | ldimm d k =>
    unfold planI at hp
    dsimp only at hp
    split at hp
    · rename_i hk; cases hp; exact ⟨hk, rfl, rfl⟩
    · cases hp
  | ldx m sz d s off => cases hp; exact ⟨trivial, rfl, rfl⟩
  | st sz d off imm => cases hp; exact ⟨trivial, rfl, rfl⟩
  | stx sz d s off => cases hp; exact ⟨trivial, rfl, rfl⟩
  | ja off =>
    unfold planI at hp
    dsimp only at hp
    obtain ⟨t, _, hp⟩ := Out.bind_eq_ok.1 hp
    cases hp
    exact ⟨trivial, rfl, rfl⟩
  | jcc w c d src off =>
    unfold planI at hp
    dsimp only at hp
    split at hp
    · cases hp
    · rename_i o e
      obtain ⟨t, _, hp⟩ := Out.bind_eq_ok.1 hp
      obtain ⟨t', _, hp⟩ := Out.bind_eq_ok.1 hp
      cases hp
      refine ⟨?_, by simp [Act.regs, reads, opd_regs, opdRegs_reg], rfl⟩
      intro h; rw [h] at e; cases e
  | call fid =>
    obtain ⟨hs, rfl⟩ := decode_call hd
    unfold planI at hp
    dsimp only at hp
    unfold planCall at hp
    rw [hs, if_neg (by decide), if_neg (by decide), if_neg (by decide)] at hp
    split at hp
    · cases hp
    split at hp
    · cases hp
    rename_i k e
    split at hp
    · split at hp
      · rename_i h
        refine absurd ?_ h6
        have : q.slot.imm = 6 := BitVec.eq_of_toNat_eq h
        rw [this]
      · cases hp
    split at hp
    · cases hp
    cases hp
    refine ⟨⟨k, e, by omega⟩, ?_, rfl⟩
    show (argOpds k.toNat).flatMap opdRegs = (List.range (arity q.slot.imm)).map (· + 1)
    rw [argOpds_regs, arity_of e]
  | exit => cases hp; exact ⟨trivial, rfl, rfl⟩

theorem rdOpds_regs {m : M} : ∀ {os : List Opd} {vs : List Val}, rdOpds m os = some vs → ∀ r ∈ os.flatMap opdRegs, m r ≠ none
  | [], _, _, r, hr => by simp at hr
  | o :: os, vs, h, r, hr => by
    obtain ⟨w, ws, h1, h2, rfl⟩ := rdOpds_cons.1 h
    rw [List.flatMap_cons] at hr
    rcases List.mem_append.1 hr with hr | hr
    · cases o with
      | imm i => simp [opdRegs] at hr
      | reg k =>
        rw [List.mem_singleton.1 hr]
        have h1 : m k = some w := h1
        rw [h1]; simp
    · exact rdOpds_regs h2 r hr

theorem wr_ne {m : M} {d r : Nat} {v : Val} (h : d ≠ r) : wr m d v r = m r := by
  unfold wr
  split
  · rfl
  · exact upd_ne _ _ (fun e => h e.symm)

/-- Registers that are read have a value; other registers than the one written stay. -/
theorem Tr1.regs {ins a m xs m1} (h : Tr1 ins a m xs m1) : (∀ r ∈ a.regs, m r ≠ none) ∧ ∀ r, a.dst ≠ some r → m1 r = m r := by
  cases h with
  | @mov d o m v h1 h2 =>
    constructor
    · intro r hr
      cases o with
      | imm i => simp [Act.regs, opdRegs] at hr
      | reg k =>
        have hr : r ∈ [k] := hr
        rw [List.mem_singleton.1 hr]
        have h1 : m k = some v := h1
        rw [h1]; simp
    · intro r hr
      exact wr_ne fun e => hr (by rw [← e]; rfl)
  | @emit i a os d m av vs x h1 h2 h3 h4 =>
    constructor
    · intro r hr
      rcases List.mem_append.1 hr with hr | hr
      · cases a with
        | none => simp at hr
        | some k =>
          have : r = k := by simpa using hr
          subst this
          have h1 : m r = some av := h1
          rw [h1]; simp
      · exact rdOpds_regs h2 r hr
    · intro r hr
      cases d with
      | none => rfl
      | some d => exact wr_ne fun e => hr (by rw [← e]; rfl)

/-- `p` stands in block `b`, before the instructions `qs`, where `r` has no value. -/
structure Lacks (P : List Slot) (C : List Blk) (s : LSt) (r p : Nat) : Prop where
  ne : r ≠ 10
  pt : ∃ (b : Nat) (k : Blk) (qs : List PreInsn) (as : List Act) (xs : List Nat) (m : M) (p' : Nat), C[b]? = some k ∧ Reach C b ∧ k.start ≤ p ∧ p < k.stop ∧
    Chain P k.stop p' qs ∧ (p' = p ∨ p' = p + 1 ∧ ∃ sl, P[p]? = some sl ∧ decode sl = none) ∧ Planned C qs as ∧ Tr s.insn as m xs (look s b) ∧ m r = none

theorem Lacks.enter (hG : Graph P C) (hF : Fin C g s) {r b q : Nat} {k : Blk} (hk : C[b]? = some k) (hr : Reach C b) (hq : k.start = q) (hlt : q < P.length) (h10 : r ≠ 10)
    (hn : g.start b r = none) : Lacks P C s r q := by
  refine ⟨h10, b, k, k.insns, g.acts b, g.code b, g.start b, q, hk, hr, by omega, ?_, ?_, .inl rfl, ?_, hF.gi.inv.tr b, hn⟩
  · have := (hG.stop b k hk).2.2 (by omega); omega
  · rw [← hq]; exact hG.chain b k hk
  · have := hF.gi.fil b (hF.filled hr)
    rwa [insns_get hk] at this

theorem start_none (hG : Graph P C) (hF : Fin C g s) {r b c : Nat} (hr : Reach C b) (hs : c ∈ succsOf C b) (h10 : r ≠ 10) (hn : look s b r = none) : g.start c r = none := by
  have hc : Reach C c := by obtain ⟨n, hn⟩ := hr; exact ⟨n + 1, .succ hn hs⟩
  have hp : b ∈ predsOf C c := (hG.edges b c).2 hs
  cases e : g.start c r with
  | none => rfl
  | some v =>
    exfalso
    cases hF.gi.inv.just c r v e with
    | sp h1 h2 => exact h10 h1
    | arg h1 h2 h3 h4 => subst h1; rw [hG.noEntry] at hp; simp at hp
    | copy p h1 h2 h3 h4 h5 =>
      rw [h4] at hp
      rw [← List.mem_singleton.1 hp, hn] at h5
      cases h5
    | phi x h1 h2 h3 h4 h5 h0 h6 h7 =>
      rcases h7 with h7 | ⟨h7, _⟩ | ⟨h7, h8⟩
      · exact h7
      · rw [hF.sealed hc] at h7; cases h7
      · rw [← h7] at hp
        obtain ⟨o, ho, he⟩ := List.mem_map.1 hp
        have := (h8 o ho).2
        rw [he, hn] at this
        cases this

theorem lacks_of (hG : Graph P C) (hF : Fin C g s) (h6 : ∀ sl ∈ P, decode sl ≠ some (.call 6)) {r p : Nat} (h : Unset P r p) : Lacks P C s r p := by
  induction h with
  | first h1 h2 h3 =>
    obtain ⟨b, k, hk, hs⟩ := (hG.start 0).2 (.inl rfl)
    have hb : b = 0 := by
      have hb0 : 0 < C.length := by have := lt_of_get hk; omega
      have hk0 : C[0]? = some C[0] := List.getElem?_eq_getElem hb0
      exact hG.inj b 0 k _ hk hk0 (by rw [hs, hG.zero _ hk0])
    subst hb
    refine Lacks.enter hG hF hk ⟨0, .zero⟩ hs h1 h3 ?_
    cases e : g.start 0 r with
    | none => rfl
    | some v =>
      exfalso
      cases hF.gi.inv.just 0 r v e with
      | sp e1 _ => exact h3 e1
      | arg _ e2 e3 _ => exact h2 ⟨e2, e3⟩
      | copy p e1 => exact e1 rfl
      | phi x e1 => exact e1 rfl
  | @next p q sl _ hs hno hfl hq ih =>
    obtain ⟨h10, b, k, qs, as, xs, m, p', hk, hr, h1, h2, hch, hp', hpl, htr, hm⟩ := ih
    -- the next point in the block, or the end of it
    have go : (∀ (qs' : List PreInsn) (as' : List Act) (xs' : List Nat) (m' : M) (p2 : Nat), Chain P k.stop p2 qs' → (p2 = p + 1 ∨ p2 = p + 2 ∧ ∃ sl, P[p + 1]? = some sl ∧ decode sl = none) → Planned C qs' as' → Tr s.insn as' m' xs' (look s b) → m' r = none →
        Lacks P C s r q) := by
      intro qs' as' xs' m' p2 c1 c2 c3 c4 c5
      rcases hG.flow b k hk p q h1 h2 hfl hq with ⟨e1, e2⟩ | ⟨e1, c, kc, hkc, e2⟩
      · subst e1
        refine ⟨h10, b, k, qs', as', xs', m', p2, hk, hr, by omega, e2, c1, ?_, c3, c4, c5⟩
        exact c2
      · have hmem : c ∈ succsOf C b := by
          rw [succs_get hk]
          exact ((hG.edge b c k kc hk hkc).1).2 ⟨by omega, by rw [e2, ← e1]; exact hfl⟩
        have hlook : look s b r = none := by
          have : p2 = k.stop ∨ k.stop < p2 := by rcases c2 with c2 | c2 <;> omega
          have hnil : qs' = [] := by
            cases c1 with
            | nil => rfl
            | one a => omega
            | wide a => omega
          subst hnil
          cases c3
          cases c4
          exact c5
        have hrc : Reach C c := by obtain ⟨n, hn⟩ := hr; exact ⟨n + 1, .succ hn hmem⟩
        exact Lacks.enter hG hF hkc hrc e2 hq h10 (start_none hG hF hr hmem h10 hlook)
    rcases hp' with rfl | ⟨rfl, sl', hsl', hnone⟩
    · cases hch with
      | nil => omega
      | @one _ sl1 i x qs' a1 a2 a3 a4 a5 =>
        rw [hs] at a2; cases a2
        cases hpl with
        | @cons _ _ a as' defd b1 b2 b3 =>
          cases htr with
          | @cons _ _ _ xs1 m1 ys m2 t1 t2 =>
            refine go qs' as' ys m1 (p' + 1) a5 (.inl rfl) b3 t2 ?_
            rw [t1.regs.2 r, hm]
            rw [(plan_regs (q := ⟨sl, false, x, p'⟩) a3 (fun e => h6 sl (List.mem_of_getElem? hs) (e ▸ a3)) b1).2.2]
            exact hno i a3
      | @wide _ sl1 sl2 d kk qs' a1 a2 a3 a4 a5 =>
        rw [hs] at a2; cases a2
        cases hpl with
        | @cons _ _ a as' defd b1 b2 b3 =>
          cases htr with
          | @cons _ _ _ xs1 m1 ys m2 t1 t2 =>
            obtain ⟨s3, e3, e4⟩ := hG.ws.legal.wide p' sl d kk hs a4
            refine go qs' as' ys m1 (p' + 2) a5 (.inr ⟨rfl, s3, e3, decode_zero e4⟩) b3 t2 ?_
            rw [t1.regs.2 r, hm]
            rw [(plan_regs (q := ⟨sl, true, sl2.imm ++ sl.imm, p'⟩) a4 (by simp) b1).2.2]
            exact hno _ a4
    · exact go qs as xs m (p + 1) hch (.inl rfl) hpl htr hm

/-- No instruction reads a register that may have no value. -/
theorem no_fault (hG : Graph P C) (hc : Closed P) (hF : Fin C g s) (h6 : ∀ sl ∈ P, decode sl ≠ some (.call 6)) : ¬ Fault P := by
  rintro (⟨sl, hsl, i, hd, hn⟩ | ⟨p, sl, i, r, hs, hd, hm, hu⟩)
  · -- every instruction of the program is in a block
    obtain ⟨p, hp⟩ := List.getElem?_of_mem hsl
    have hlt := lt_of_get hp
    obtain ⟨b, k, hk, hr, h1, h2⟩ := hG.reach_slot (by omega) (hG.ws.live p hlt)
    have hpl := hF.gi.fil b (hF.filled hr)
    rw [insns_get hk] at hpl
    have key : ∀ {p' : Nat} {qs : List PreInsn}, Chain P k.stop p' qs → ∀ {as}, Planned C qs as → p' ≤ p → False := by
      intro p' qs hch
      induction hch with
      | nil => intro as _ h; omega
      | @one p' sl1 i1 x qs' a1 a2 a3 a4 a5 ih =>
        intro as hpl hle
        cases hpl with
        | @cons _ _ a as' defd b1 b2 b3 =>
          by_cases e : p' = p
          · subst e
            rw [hp] at a2; cases a2
            exact hn (plan_regs (q := ⟨sl, false, x, p'⟩) hd (fun e => h6 sl hsl (e ▸ hd)) b1).1
          · exact ih b3 (by omega)
      | @wide p' sl1 sl2 d kk qs' a1 a2 a3 a4 a5 ih =>
        intro as hpl hle
        cases hpl with
        | @cons _ _ a as' defd b1 b2 b3 =>
          by_cases e : p' = p
          · subst e
            rw [hp] at a2; cases a2
            exact hn (plan_regs (q := ⟨sl, true, sl2.imm ++ sl.imm, p'⟩) hd (fun e => h6 sl hsl (e ▸ hd)) b1).1
          · by_cases e' : p' + 1 = p
            · obtain ⟨s3, e3, e4⟩ := hG.ws.legal.wide p' sl1 d kk a2 a4
              rw [e', hp] at e3; cases e3
              rw [decode_zero e4] at hd; cases hd
            · exact ih b3 (by omega)
    exact key (hG.chain b k hk) hpl h1
  · obtain ⟨h10, b, k, qs, as, xs, m, p', hk, hr, h1, h2, hch, hp', hpl, htr, hno⟩ := lacks_of hG hF h6 hu
    rcases hp' with rfl | ⟨rfl, sl', hsl', hnone⟩
    · have h6' : i ≠ .call 6 := fun e => h6 sl (List.mem_of_getElem? hs) (e ▸ hd)
      cases hch with
      | nil => omega
      | @one _ sl1 i1 x qs' a1 a2 a3 a4 a5 =>
        rw [hs] at a2; cases a2
        cases hpl with
        | @cons _ _ a as' defd b1 b2 b3 =>
          cases htr with
          | @cons _ _ _ xs1 m1 ys m2 t1 t2 =>
            exact t1.regs.1 r (by rw [(plan_regs (q := ⟨sl, false, x, p'⟩) hd h6' b1).2.1]; exact hm) hno
      | @wide _ sl1 sl2 d kk qs' a1 a2 a3 a4 a5 =>
        rw [hs] at a2; cases a2
        rw [hd] at a4; cases a4
        simp [reads] at hm
    · rw [hs] at hsl'; cases hsl'
      rw [hd] at hnone; cases hnone

theorem unset_map (hl : Legal P) {r p : Nat} (h : Unset P r p) : Unset (P.map zeroJump) r p := by
  induction h with
  | first h1 h2 h3 => exact .first (by simpa using h1) h2 h3
  | next _ h2 h3 h4 h5 ih =>
    refine .next ih (get_zero h2) ?_ ((flow_zero hl _ _).2 h4) (by simpa using h5)
    intro i hi
    rcases decode_zeroJump hl h2 with e | ⟨e, w, c, d, src, e'⟩
    · exact h3 i (by rw [← e]; exact hi)
    · rw [e] at hi; cases hi; simp [writes]

end Verif.Lift
