import Verif.Lift.Total
import Verif.Lift.Zero
/-!
# What the lifter refuses: from blocks to slots
-/
namespace Verif.Lift
open Verif Verif.Bpf Verif.IR Verif.GenBB
set_option linter.unusedSimpArgs false
set_option linter.unusedVariables false

variable {P : List Slot} {C : List Blk}

/-- Some instruction is not supported, or some register may be read before it is written. -/
def Fault (P : List Slot) : Prop :=
  (∃ s ∈ P, ∃ i, decode s = some i ∧ ¬ Supported i) ∨
  ∃ (p : Nat) (s : Slot) (i : Instr) (r : Nat), P[p]? = some s ∧ decode s = some i ∧ r ∈ reads i ∧ Unset P r p

theorem Graph.starts (h : Graph P C) (hc : Closed P) {b : Nat} {k : Blk} (hk : C[b]? = some k) : k.start < P.length := by
  have hl := (h.start k.start).1 ⟨b, k, hk, rfl⟩
  have hpos : 0 < P.length := List.length_pos_iff.2 hc.1
  rcases hl with h0 | ⟨p, sl, i, h1, h2, h3⟩
  · omega
  · have hp := lt_of_get h1
    have hf : ∀ q ∈ Bpf.flow P p, q < P.length := hc.2 p hp
    rw [flow_get h1, h2] at hf
    rcases h3 with ⟨off, h4, h5⟩ | ⟨w, c, d, src, off, rfl, h5⟩ | ⟨_, _, h5⟩
    · cases i with
      | ja o => cases h4; have := hf _ (by rw [flowI_ja]; exact List.mem_singleton.2 rfl); omega
      | jcc w c d src o => cases h4; have := hf (p + 1 + off.toInt) (by rw [flowI_jcc]; simp); omega
      | _ => cases h4
    · have := hf (p + 1) (by rw [flowI_jcc]; simp); omega
    · exact h5

theorem Graph.reachAll (h : Graph P C) (hc : Closed P) {b : Nat} (hb : b < C.length) : Reach C b := by
  have hk := List.getElem?_eq_getElem hb
  have h1 := h.starts hc hk
  obtain ⟨c, kc, hkc, hr, h4, h5⟩ := h.reach_slot (by omega) (h.ws.live _ h1)
  have := h.one c b kc _ hkc hk h4 h5 (Nat.le_refl _) ((h.stop b _ hk).2.2 h1)
  exact this ▸ hr

theorem bound (d : Nat → Nat) : ∀ n, ∃ K, ∀ b, b < n → d b ≤ K
  | 0 => ⟨0, fun b h => by omega⟩
  | n + 1 => by
    obtain ⟨K, h⟩ := bound d n
    refine ⟨K + d n, fun b hb => ?_⟩
    by_cases e : b = n
    · subst e; omega
    · have := h b (by omega); omega

theorem Graph.ctx (h : Graph P C) (hc : Closed P) : ∃ d K, Ctx C d K := by
  have hd : ∀ b, ∃ n, b < C.length → IsDist C b n := by
    intro b
    by_cases hb : b < C.length
    · obtain ⟨n, hn⟩ := exists_dist (h.reachAll hc hb)
      exact ⟨n, fun _ => hn⟩
    · exact ⟨0, fun e => absurd e hb⟩
  obtain ⟨d, hd⟩ := Classical.axiomOfChoice hd
  obtain ⟨K, hK⟩ := bound d C.length
  have hlt : ∀ b, ∀ p ∈ predsOf C b, p < C.length := by
    intro b p hp
    obtain ⟨k, hk, hm⟩ := mem_preds hp
    obtain ⟨k', hk'⟩ := h.lt_pred hk hm
    exact lt_of_get hk'
  refine ⟨d, K, h.edges, hlt, ?_, ?_, hK⟩
  · intro b p hp
    obtain ⟨k, hk, hm⟩ := mem_succs hp
    obtain ⟨k', hk'⟩ := h.lt_succ hk hm
    exact lt_of_get hk'
  · intro b p h0 hb e
    have hpm : p ∈ predsOf C b := by rw [e]; exact List.mem_singleton.2 rfl
    have hpd := hd p (hlt b p hpm)
    have hbd := hd b hb
    obtain ⟨h1, h2⟩ := hbd
    generalize hn : d b = n at h1
    cases h1 with
    | zero => exact absurd rfl h0
    | @succ c _ m hm hs =>
      have : c = p := by
        have := (h.edges c b).2 hs
        rw [e] at this
        exact List.mem_singleton.1 this
      subst this
      have := hpd.2 m hm
      omega

theorem flow_next {p : Nat} {s : Slot} (hs : P[p]? = some s) (hn : ¬ isTerminator P p) : (((p + 1 : Nat)) : Int) ∈ Bpf.flow P p := by
  rw [flow_get hs, flowI_other]
  · simp
  · intro i hi
    refine ⟨fun e => hn ⟨s, i, hs, hi, .inl e⟩, ?_⟩
    cases hj : jumpOffset i with
    | none => rfl
    | some o => exact absurd ⟨s, i, hs, hi, .inr (by rw [hj]; rfl)⟩ hn

/-- Through the instructions of a block. -/
theorem Chain.walk (hw : WellShaped P) {stop r : Nat} (hstop : stop ≤ P.length) : ∀ {p : Nat} {qs : List PreInsn}, Chain P stop p qs →
    (∀ p', p ≤ p' → p' + 1 < stop → ¬ isTerminator P p') → Unset P r p → ∀ pre rest, qs = pre ++ rest → ¬ Wrote pre r →
    (∀ q post, rest = q :: post → Unset P r q.pos ∧ P[q.pos]? = some q.slot) ∧
    (rest = [] → p < stop → Unset P r (stop - 1) ∧ ∃ s, P[stop - 1]? = some s ∧ ∀ i, decode s = some i → writes i ≠ some r) := by
  intro p qs h
  induction h with
  | nil =>
    intro _ _ pre rest e _
    obtain ⟨rfl, rfl⟩ := List.append_eq_nil_iff.1 e.symm
    exact ⟨fun q post e => (List.cons_ne_nil _ _ e.symm).elim, fun _ h => absurd h (by omega)⟩
  | @one p s i x qs h1 h2 h3 h4 h5 ih =>
    intro hin hu pre rest e hn
    cases pre with
    | nil =>
      rw [List.nil_append] at e
      subst e
      refine ⟨fun q post e => ?_, fun e => (List.cons_ne_nil _ _ e).elim⟩
      injection e with e1 _
      subst e1
      exact ⟨hu, h2⟩
    | cons q pre =>
      rw [List.cons_append] at e
      injection e with e1 e2
      subst e1
      have hno : ∀ i', decode s = some i' → writes i' ≠ some r := fun i' hd he => hn ⟨_, List.mem_cons_self, i', hd, he⟩
      have hn' : ¬ Wrote pre r := fun ⟨q, hq, hx⟩ => hn ⟨q, List.mem_cons_of_mem _ hq, hx⟩
      by_cases hl : p + 1 < stop
      · have hu' : Unset P r (p + 1) := .next hu h2 hno (flow_next h2 (hin p (Nat.le_refl _) hl)) (by omega)
        obtain ⟨g1, g2⟩ := ih (fun p' a b => hin p' (by omega) b) hu' pre rest e2 hn'
        exact ⟨g1, fun e _ => g2 e hl⟩
      · have hst : stop = p + 1 := by omega
        subst hst
        cases h5 with
        | nil =>
          obtain ⟨rfl, rfl⟩ := List.append_eq_nil_iff.1 e2.symm
          exact ⟨fun q post e => (List.cons_ne_nil _ _ e.symm).elim, fun _ _ => ⟨hu, s, h2, hno⟩⟩
        | one a => omega
        | wide a => omega
  | @wide p s s2 d k qs h1 h2 h2' h3 h5 ih =>
    intro hin hu pre rest e hn
    cases pre with
    | nil =>
      rw [List.nil_append] at e
      subst e
      refine ⟨fun q post e => ?_, fun e => (List.cons_ne_nil _ _ e).elim⟩
      injection e with e1 _
      subst e1
      exact ⟨hu, h2⟩
    | cons q pre =>
      rw [List.cons_append] at e
      injection e with e1 e2
      subst e1
      have hno : ∀ i', decode s = some i' → writes i' ≠ some r := fun i' hd he => hn ⟨_, List.mem_cons_self, i', hd, he⟩
      have hn' : ¬ Wrote pre r := fun ⟨q, hq, hx⟩ => hn ⟨q, List.mem_cons_of_mem _ hq, hx⟩
      have hu' : Unset P r (p + 1) := .next hu h2 hno (flow_next h2 (hin p (Nat.le_refl _) h1)) (by omega)
      obtain ⟨s3, e3, e4⟩ := hw.legal.wide p s d k h2 h3
      rw [h2'] at e3; cases e3
      have hno2 : ∀ i', decode s2 = some i' → writes i' ≠ some r := by
        intro i' hd; rw [decode_zero e4] at hd; cases hd
      by_cases hl : p + 2 < stop
      · have hu2 : Unset P r (p + 2) := .next hu' h2' hno2 (flow_next h2' (hin (p + 1) (by omega) hl)) (by omega)
        obtain ⟨g1, g2⟩ := ih (fun p' a b => hin p' (by omega) b) hu2 pre rest e2 hn'
        exact ⟨g1, fun e _ => g2 e hl⟩
      · have hst : stop = p + 2 := by omega
        subst hst
        cases h5 with
        | nil =>
          obtain ⟨rfl, rfl⟩ := List.append_eq_nil_iff.1 e2.symm
          exact ⟨fun q post e => (List.cons_ne_nil _ _ e.symm).elim, fun _ _ => ⟨hu', s2, h2', hno2⟩⟩
        | one a => omega
        | wide a => omega

theorem Graph.unset (h : Graph P C) (hc : Closed P) {r b : Nat} (hb : Bare C r b) : ∀ k, C[b]? = some k → Unset P r k.start := by
  induction hb with
  | entry h1 h2 =>
    intro k hk
    rw [h.zero k hk]
    exact .first (List.length_pos_iff.2 hc.1) h1 h2
  | @step b c _ hs hn ih =>
    intro kc hkc
    obtain ⟨k, hk, hm⟩ := mem_succs hs
    rw [insns_get hk] at hn
    obtain ⟨h1, h2⟩ := ((h.edge b c k kc hk hkc).1).1 hm
    obtain ⟨h3, s, h4, h5⟩ := (Chain.walk h.ws (h.stop b k hk).2.1 (h.chain b k hk) (h.inner b k hk) (ih k hk) k.insns [] (by simp) hn).2 rfl h1
    exact .next h3 h4 h5 h2 (h.starts hc hkc)

theorem bbAt_of (h : Graph P C) {pos : Int} {q : Nat} (he : (q : Int) = pos) (hq : leader P q) : ∃ t, bbAt C pos = .ok t := by
  obtain ⟨b, k, hk, hs⟩ := (h.start q).2 hq
  unfold bbAt
  split
  · exact ⟨_, rfl⟩
  · rename_i e
    rw [List.findIdx?_eq_none_iff] at e
    have := e k (List.mem_of_getElem? hk)
    simp [hs, he] at this

theorem Chain.at {stop p qs} (h : Chain P stop p qs) : ∀ q ∈ qs, P[q.pos]? = some q.slot := by
  induction h with
  | nil => simp
  | one h1 h2 h3 h4 h5 ih =>
    intro q hq
    rcases List.mem_cons.1 hq with rfl | hq
    · exact h2
    · exact ih q hq
  | wide h1 h2 h3 h4 h5 ih =>
    intro q hq
    rcases List.mem_cons.1 hq with rfl | hq
    · exact h2
    · exact ih q hq

theorem Graph.fittings (h : Graph P C) (hc : Closed P) (hr : KnownRegs P) (b : Nat) : Fittings C (Fault P) b (insnsOf C b) := by
  intro pre q post e
  obtain ⟨k, hk⟩ : ∃ k, C[b]? = some k := by
    cases hk : C[b]? with
    | some k => exact ⟨k, rfl⟩
    | none => unfold insnsOf at e; rw [hk] at e; simp at e
  rw [insns_get hk] at e
  have hq : q ∈ k.insns := by rw [e]; simp
  have hP := (h.chain b k hk).at q hq
  obtain ⟨i, hi⟩ := (h.chain b k hk).dec q hq
  have hmem := List.mem_of_getElem? hP
  refine ⟨i, hi, fun hs => .inl ⟨_, hmem, i, hi, hs⟩, ?_, hr _ hmem i hi, ?_, ?_⟩
  · intro r hm hB hn
    exact .inr ⟨_, _, i, r, hP, hi, hm, ((Chain.walk h.ws (h.stop b k hk).2.1 (h.chain b k hk) (h.inner b k hk) (h.unset hc hB k hk) pre (q :: post) e hn).1 q post rfl).1⟩
  · intro off ho
    have := (h.ws.legal.jumps _ _ i off hP hi ho).1
    refine bbAt_of h (q := ((q.pos : Int) + 1 + off.toInt).toNat) (by omega) (.inr ⟨q.pos, _, i, hP, hi, .inl ⟨off, ho, by omega⟩⟩)
  · intro w c d src off e
    exact bbAt_of h (q := q.pos + 1) (by omega) (.inr ⟨q.pos, _, i, hP, hi, .inr (.inl ⟨w, c, d, src, off, e, rfl⟩)⟩)

theorem unset_zero (hl : Legal P) {r p : Nat} (h : Unset (P.map zeroJump) r p) : Unset P r p := by
  induction h with
  | first h1 h2 h3 => exact .first (by simpa using h1) h2 h3
  | next _ h2 h3 h4 h5 ih =>
    obtain ⟨s', h6, rfl⟩ := get_map h2
    refine .next ih h6 ?_ ((flow_zero hl _ _).1 h4) (by simpa using h5)
    intro i hi
    rcases decode_zeroJump hl h6 with e | ⟨e, w, c, d, src, e'⟩
    · exact h3 i (by rw [e]; exact hi)
    · rw [e'] at hi; cases hi; simp [writes]

theorem zeroJump_jcc {s : Slot} {w c d src} (h : decode s = some (.jcc w c d src 0)) : zeroJump s = ⟨5, 0, 0, 0, 0⟩ := by
  obtain ⟨_, h2, _, _, h5⟩ := decode_class h
  have := h5 0 rfl
  unfold zeroJump
  rw [h2.2 ⟨w, c, d, src, by rw [← this]⟩, ← this]
  rfl

theorem fault_zero (hl : Legal P) (h : Fault (P.map zeroJump)) : Unknown P ∨ ReadsUnset P := by
  have key : ∀ (p : Nat) (s' : Slot) (i : Instr), P[p]? = some s' → decode (zeroJump s') = some i → (∀ off, i ≠ .ja off) → decode s' = some i ∧ ¬ Pointless i := by
    intro p s' i h6 h1 hn
    rcases decode_zeroJump hl h6 with e | ⟨e, _⟩
    · rw [e] at h1
      refine ⟨h1, fun hp => ?_⟩
      cases i with
      | jcc w c d src off =>
        have : off = 0 := hp
        subst this
        have := zeroJump_jcc h1
        rw [this, decode_ja0] at e
        rw [h1] at e; cases e
      | _ => exact hp.elim
    · rw [e] at h1; cases h1; exact absurd rfl (hn 0)
  rcases h with ⟨s, hs, i, h1, h2⟩ | ⟨p, s, i, r, hs, h1, h2, h3⟩
  · obtain ⟨p, hp⟩ := List.getElem?_of_mem hs
    obtain ⟨s', h6, rfl⟩ := get_map hp
    obtain ⟨k1, k2⟩ := key p s' i h6 h1 (fun off e => by subst e; exact h2 trivial)
    exact .inl ⟨s', List.mem_of_getElem? h6, i, k1, k2, h2⟩
  · obtain ⟨s', h6, rfl⟩ := get_map hs
    obtain ⟨k1, k2⟩ := key p s' i h6 h1 (fun off e => by subst e; simp [reads] at h2)
    exact .inr ⟨p, s', i, r, h6, k1, k2, h2, unset_zero hl h3⟩

theorem known_zero (hl : Legal P) (h : KnownRegs P) : KnownRegs (P.map zeroJump) := by
  intro s hs i hd
  obtain ⟨p, hp⟩ := List.getElem?_of_mem hs
  obtain ⟨s', h6, rfl⟩ := get_map hp
  rcases decode_zeroJump hl h6 with e | ⟨e, _⟩
  · exact h s' (List.mem_of_getElem? h6) i (by rw [← e]; exact hd)
  · rw [e] at hd; cases hd; simp [reads, writes]

theorem closed_zero' (hl : Legal P) (hc : Closed P) : Closed (P.map zeroJump) :=
  ⟨by simpa using hc.1, fun p hp q hq => by
    have := hc.2 p (by simpa using hp) q ((flow_zero hl p q).1 hq)
    simpa using this⟩

theorem lift_total (hw : WellShaped P) (hc : Closed P) (hlen : P.length ≤ 32768) (hr : KnownRegs P) :
    ∃ n0, ∀ n, n0 ≤ n → (∃ f, lift n P = .ok f) ∨ (lift n P = .err ∧ (Unknown P ∨ ReadsUnset P)) := by
  have hl := hw.legal
  obtain ⟨C, h1, hG⟩ := graph_of (wellShaped_zero hw) (map_idem P) (by simpa using hlen)
  rw [genBB_idem] at h1
  have hc' := closed_zero' hl hc
  obtain ⟨d, K, hC⟩ := hG.ctx hc'
  have hpos : 0 < C.length := by
    obtain ⟨b, k, hk, _⟩ := (hG.start 0).2 (.inl rfl)
    have := lt_of_get hk
    omega
  refine ⟨enough C K, fun n hn => ?_⟩
  have := liftBlocks_total hC hpos (hG.fittings hc' (known_zero hl hr)) hn
  unfold lift
  rw [h1, Out.ok_bind]
  cases e : liftBlocks n C with
  | ok s => exact .inl ⟨_, rfl⟩
  | err => rw [e] at this; exact .inr ⟨rfl, fault_zero hl this⟩
  | crit => rw [e] at this; exact this.elim
  | ub => rw [e] at this; exact this.elim

end Verif.Lift
