import Verif.Lift.Sim
import Verif.GenBB.Props
/-!
# The lifted function behaves like the machine: program level
-/
namespace Verif.Lift
open Verif Verif.Bpf Verif.IR Verif.GenBB
set_option linter.unusedSimpArgs false
set_option linter.unusedVariables false

/-- The bytecode instructions `qs` stand at `[p, stop)`. -/
inductive Chain (P : List Slot) (stop : Nat) : Nat → List PreInsn → Prop
  | nil : Chain P stop stop []
  | one {p s i x qs} : p < stop → P[p]? = some s → decode s = some i → (∀ d k, i ≠ .ldimm d k) →
      Chain P stop (p + 1) qs → Chain P stop p (⟨s, false, x, p⟩ :: qs)
  | wide {p s s2 d k qs} : p + 1 < stop → P[p]? = some s → P[p + 1]? = some s2 → decode s = some (.ldimm d k) →
      Chain P stop (p + 2) qs → Chain P stop p (⟨s, true, s2.imm ++ s.imm, p⟩ :: qs)

theorem Chain.nil_eq {P : List Slot} {stop p : Nat} (h : Chain P stop p []) : p = stop := by cases h; rfl

theorem toS64_append (a b : BitVec 32) : toS64 a b = b ++ a := by
  have := toS64_split (b ++ a)
  have h1 : (b ++ a : BitVec 64).setWidth 32 = a := by
    apply BitVec.eq_of_getLsbD_eq
    intro i hi
    have : i < 64 := by omega
    rw [BitVec.getLsbD_setWidth, BitVec.getLsbD_append]
    simp [hi]
  have h2 : ((b ++ a : BitVec 64) >>> 32).setWidth 32 = b := by
    apply BitVec.eq_of_getLsbD_eq
    intro i hi
    have : ¬ (32 + i < 32) := by omega
    rw [BitVec.getLsbD_setWidth, BitVec.getLsbD_ushiftRight, BitVec.getLsbD_append]
    simp [hi, this]
  rw [h1, h2] at this
  exact this

theorem ws_notHalf {P : List Slot} (hw : WellShaped P) {q : Nat} (hq : leader P q) {s : Slot} (hs : P[q]? = some s) : s.code ≠ 0 := by
  rcases hq with rfl | ⟨p, s', i, h1, h2, h3⟩
  · exact hw.first s hs
  · rcases h3 with ⟨off, h3, h4⟩ | ⟨w, c, d, src, off, rfl, rfl⟩ | ⟨rfl, rfl, _⟩
    · exact hw.into p s' i off h1 h2 h3 q s h4 hs
    · intro h0
      obtain ⟨s'', d', k, h5, h6⟩ := hw.half p s hs h0
      rw [h1] at h5; cases h5; rw [h2] at h6; cases h6
    · intro h0
      obtain ⟨s'', d', k, h5, h6⟩ := hw.half p s hs h0
      rw [h1] at h5; cases h5; rw [h2] at h6; cases h6

theorem get!_of {P : List Slot} {p : Nat} {s : Slot} (h : P[p]? = some s) : P[p]! = s := by
  rw [List.getElem!_eq_getElem?_getD, h]; rfl

theorem chain_of {P : List Slot} (hw : WellShaped P) {stop : Nat} (hs : stop ≤ P.length)
    (hst : ∀ s, P[stop]? = some s → s.code ≠ 0) : ∀ (k p : Nat), stop - p ≤ k → p ≤ stop →
    (∀ s, P[p]? = some s → s.code ≠ 0) → Chain P stop p (readInsns P stop k p) := by
  intro k
  induction k using Nat.strongRecOn with
  | ind k ih =>
    intro p hk hp h0
    cases k with
    | zero =>
      have : p = stop := by omega
      subst this; exact .nil
    | succ k =>
      simp only [readInsns]
      by_cases hlt : p < stop
      · rw [if_pos hlt]
        have hpl : p < P.length := by omega
        have hg : P[p]? = some P[p] := List.getElem?_eq_getElem hpl
        generalize P[p] = s at hg
        rw [get!_of hg]
        have hd : ∃ i, decode s = some i := by
          rcases hw.legal.enc s (List.mem_of_getElem? hg) with h | h
          · exact absurd h (h0 s hg)
          · exact Option.isSome_iff_exists.1 h
        obtain ⟨i, hd⟩ := hd
        by_cases hld : ∃ d k, i = .ldimm d k
        · obtain ⟨d, kk, rfl⟩ := hld
          obtain ⟨s2, h2, h3⟩ := hw.legal.wide p s d kk hg hd
          have hlt2 : p + 1 < stop := by
            rcases Nat.lt_or_ge (p + 1) stop with h | h
            · exact h
            · have : p + 1 = stop := by omega
              rw [this] at h2
              exact absurd h3 (hst s2 h2)
          rw [get!_of h2, toS64_append]
          simp only [hlt2, h3, decide_true, beq_self_eq_true, Bool.and_self, if_true]
          refine .wide hlt2 hg h2 hd (ih k (by omega) (p + 2) (by omega) (by omega) ?_)
          intro s3 h4 h5
          obtain ⟨s', d', k', h6, h7⟩ := hw.half (p + 1) s3 h4 h5
          rw [h2] at h6; cases h6
          rw [decode_zero h3] at h7; cases h7
        · have hn : ∀ s2, P[p + 1]? = some s2 → s2.code ≠ 0 := by
            intro s2 h2 h3
            obtain ⟨s', d', k', h6, h7⟩ := hw.half p s2 h2 h3
            rw [hg] at h6; cases h6
            rw [hd] at h7; cases h7
            exact hld ⟨_, _, rfl⟩
          rw [if_neg]
          · exact .one hlt hg hd (fun d kk e => hld ⟨d, kk, e⟩) (ih k (by omega) (p + 1) (by omega) (by omega) hn)
          · simp only [Bool.and_eq_true, decide_eq_true_eq, beq_iff_eq, not_and]
            intro h4
            have h5 : P[p + 1]? = some P[p + 1] := List.getElem?_eq_getElem (by omega)
            rw [get!_of h5]
            exact hn _ h5
      · have : p = stop := by omega
        subst this
        rw [if_neg (by omega)]
        exact .nil

/-- What is known about the blocks of a well-shaped program. -/
structure Graph (P : List Slot) (C : List Blk) : Prop where
  ws : WellShaped P
  nz : P.map zeroJump = P
  chain : ∀ (b : Nat) (k : Blk), C[b]? = some k → Chain P k.stop k.start k.insns
  stop : ∀ (b : Nat) (k : Blk), C[b]? = some k → k.start ≤ k.stop ∧ k.stop ≤ P.length ∧ (k.start < P.length → k.start < k.stop)
  inner : ∀ (b : Nat) (k : Blk), C[b]? = some k → ∀ p, k.start ≤ p → p + 1 < k.stop → ¬ isTerminator P p
  edge : ∀ (i j : Nat) (a b : Blk), C[i]? = some a → C[j]? = some b →
    (j ∈ a.succs ↔ a.start < a.stop ∧ (b.start : Int) ∈ flow P (a.stop - 1)) ∧
    (j ∈ a.succs ↔ i ∈ b.preds) ∧ a.succs.Nodup ∧ b.preds.Nodup ∧ (∀ k, k ∈ a.succs ∨ k ∈ b.preds → k < C.length)
  start : ∀ q, (∃ (b : Nat) (k : Blk), C[b]? = some k ∧ k.start = q) ↔ leader P q
  pw : ∀ (i j : Nat) (a b : Blk), C[i]? = some a → C[j]? = some b → i < j → a.start < b.start ∧ a.stop ≤ b.start
  zero : ∀ k : Blk, C[0]? = some k → k.start = 0
  /-- control stays in the block or goes from its end to the start of a block -/
  flow : ∀ (b : Nat) (k : Blk), C[b]? = some k → ∀ p q : Nat, k.start ≤ p → p < k.stop → (q : Int) ∈ Bpf.flow P p → q < P.length →
    (q = p + 1 ∧ q < k.stop) ∨ (p = k.stop - 1 ∧ ∃ (c : Nat) (k' : Blk), C[c]? = some k' ∧ k'.start = q)

theorem graph_of {P : List Slot} (hw : WellShaped P) (hz : P.map zeroJump = P) (hs : P.length ≤ 32768) :
    ∃ C, genBB P = .ok C ∧ Graph P C := by
  have hn : NoJumpToStart P := hw.start
  obtain ⟨rs, h1, hc⟩ := genBB_char hw.legal hn hs
  obtain ⟨bs, h2, he⟩ := C16_edges_partial P hw.legal hn hs
  rw [h1] at h2; injection h2 with h2; subst h2
  have ex : ∀ r ∈ rs, ∃ (c : Nat) (k' : Blk), (build (P.map zeroJump) rs)[c]? = some k' ∧ k'.start = r.1 := by
    intro r hr
    obtain ⟨j, hj⟩ := List.getElem?_of_mem hr
    exact ⟨j, _, build_get.2 ⟨r, hj, rfl⟩, rfl⟩
  refine ⟨_, h1, hw, hz, ?_, ?_, ?_, he, ?_, ?_, ?_, ?_⟩
  · intro b k hk
    obtain ⟨r, hr, rfl⟩ := build_get.1 hk
    have hm := List.mem_of_getElem? hr
    obtain ⟨e1, e2, e3, e4, e5⟩ := hc.each r hm
    rw [hz]
    refine chain_of hw e2 ?_ _ _ (Nat.le_refl _) e1 ?_
    · intro s hs' h0
      have hlt := lt_of_get hs'
      rcases e5 hlt with ⟨⟨s1, i, h3, h4, h5⟩, h6⟩ | ⟨r', hr', h3⟩
      · obtain ⟨s2, d, kk, h7, h8⟩ := hw.half (r.2.1 - 1) s (by rw [show r.2.1 - 1 + 1 = r.2.1 by omega]; exact hs') h0
        rw [h3] at h7; cases h7
        rw [h4] at h8; cases h8
        simp [jumpOffset] at h5
      · exact ws_notHalf hw ((hc.starts _).1 ⟨r', hr', h3⟩) hs' h0
    · intro s hs'
      exact ws_notHalf hw ((hc.starts _).1 ⟨r, hm, rfl⟩) hs'
  · intro b k hk
    obtain ⟨r, hr, rfl⟩ := build_get.1 hk
    obtain ⟨e1, e2, e3, e4, e5⟩ := hc.each r (List.mem_of_getElem? hr)
    exact ⟨e1, e2, e3⟩
  · intro b k hk
    obtain ⟨r, hr, rfl⟩ := build_get.1 hk
    obtain ⟨e1, e2, e3, e4, e5⟩ := hc.each r (List.mem_of_getElem? hr)
    exact e4
  · intro q
    rw [← hc.starts q]
    constructor
    · rintro ⟨b, k, hk, rfl⟩
      obtain ⟨r, hr, rfl⟩ := build_get.1 hk
      exact ⟨r, List.mem_of_getElem? hr, rfl⟩
    · rintro ⟨r, hr, rfl⟩
      exact ex r hr
  · intro i j a b hi hj h
    obtain ⟨r, hr, rfl⟩ := build_get.1 hi
    obtain ⟨r', hr', rfl⟩ := build_get.1 hj
    have := List.pairwise_iff_getElem.1 hc.pw i j (lt_of_get hr) (lt_of_get hr') h
    rw [(List.getElem?_eq_some_iff.1 hr).2, (List.getElem?_eq_some_iff.1 hr').2] at this
    exact this
  · intro k hk
    obtain ⟨r, hr, rfl⟩ := build_get.1 hk
    exact hc.head r (by rw [List.head?_eq_getElem?]; exact hr)
  · intro b k hk p q h3 h4 h5 h6
    obtain ⟨r, hr, rfl⟩ := build_get.1 hk
    rcases flow_inside hw.legal hc (List.mem_of_getElem? hr) h3 h4 h5 h6 with h | ⟨h, r', hr', h7⟩
    · exact .inl h
    · obtain ⟨c, k', h8, h9⟩ := ex r' hr'
      exact .inr ⟨h, c, k', h8, by omega⟩

section
variable {P : List Slot} {C : List Blk}

theorem Graph.inj (h : Graph P C) (i j : Nat) (a b : Blk) (hi : C[i]? = some a) (hj : C[j]? = some b) (he : a.start = b.start) : i = j := by
  rcases Nat.lt_trichotomy i j with hlt | hlt | hlt
  · have := h.pw i j a b hi hj hlt; omega
  · exact hlt
  · have := h.pw j i b a hj hi hlt; omega

/-- A slot lies in one block only. -/
theorem Graph.one (h : Graph P C) (i j : Nat) (a b : Blk) (hi : C[i]? = some a) (hj : C[j]? = some b) {p : Nat}
    (h1 : a.start ≤ p) (h2 : p < a.stop) (h3 : b.start ≤ p) (h4 : p < b.stop) : i = j := by
  rcases Nat.lt_trichotomy i j with hlt | hlt | hlt
  · have := h.pw i j a b hi hj hlt; omega
  · exact hlt
  · have := h.pw j i b a hj hi hlt; omega

theorem Graph.lt_succ (h : Graph P C) {b : Nat} {k : Blk} (hk : C[b]? = some k) {t : Nat} (ht : t ∈ k.succs) : ∃ k', C[t]? = some k' := by
  have := (h.edge b b k k hk hk).2.2.2.2 t (.inl ht)
  exact ⟨_, List.getElem?_eq_getElem this⟩

theorem Graph.lt_pred (h : Graph P C) {b : Nat} {k : Blk} (hk : C[b]? = some k) {t : Nat} (ht : t ∈ k.preds) : ∃ k', C[t]? = some k' := by
  have := (h.edge b b k k hk hk).2.2.2.2 t (.inr ht)
  exact ⟨_, List.getElem?_eq_getElem this⟩

theorem succs_get {b : Nat} {k : Blk} (hk : C[b]? = some k) : succsOf C b = k.succs := by simp [succsOf, hk]
theorem preds_get {b : Nat} {k : Blk} (hk : C[b]? = some k) : predsOf C b = k.preds := by simp [predsOf, hk]
theorem insns_get {b : Nat} {k : Blk} (hk : C[b]? = some k) : insnsOf C b = k.insns := by simp [insnsOf, hk]

theorem mem_succs {b t : Nat} (h : t ∈ succsOf C b) : ∃ k, C[b]? = some k ∧ t ∈ k.succs := by
  unfold succsOf at h
  split at h
  · rename_i k hk; exact ⟨k, hk, h⟩
  · simp at h
theorem mem_preds {b t : Nat} (h : t ∈ predsOf C b) : ∃ k, C[b]? = some k ∧ t ∈ k.preds := by
  unfold predsOf at h
  split at h
  · rename_i k hk; exact ⟨k, hk, h⟩
  · simp at h

/-- The start of a block reachable in the graph and its slots. -/
theorem Graph.reach_slot (h : Graph P C) (h0 : 0 < P.length) {p : Nat} (hp : SlotReach P p) :
    ∃ (b : Nat) (k : Blk), C[b]? = some k ∧ Reach C b ∧ k.start ≤ p ∧ p < k.stop := by
  have enter : ∀ (b : Nat) (k : Blk) q, C[b]? = some k → Reach C b → k.start = q → q < P.length →
      ∃ (b : Nat) (k : Blk), C[b]? = some k ∧ Reach C b ∧ k.start ≤ q ∧ q < k.stop := by
    intro b k q hk hr he hq
    exact ⟨b, k, hk, hr, by omega, by have := (h.stop b k hk).2.2 (by omega); omega⟩
  induction hp with
  | first hlt =>
    obtain ⟨b, k, hk, hs⟩ := (h.start 0).2 (.inl rfl)
    have hb : b = 0 := by
      have hb0 : 0 < C.length := by have := lt_of_get hk; omega
      have hk0 : C[0]? = some C[0] := List.getElem?_eq_getElem hb0
      exact h.inj b 0 k _ hk hk0 (by rw [hs, h.zero _ hk0])
    subst hb
    exact enter 0 k 0 hk ⟨0, .zero⟩ hs hlt
  | @next p q hp hf hq ih =>
    obtain ⟨b, k, hk, hr, h1, h2⟩ := ih
    rcases h.flow b k hk p q h1 h2 hf hq with ⟨h3, h4⟩ | ⟨h3, c, k', hk', h4⟩
    · exact ⟨b, k, hk, hr, by omega, h4⟩
    · have : c ∈ k.succs := ((h.edge b c k k' hk hk').1).2 ⟨by omega, by rw [h4, ← h3]; exact hf⟩
      obtain ⟨n, hn⟩ := hr
      exact enter c k' q hk' ⟨n + 1, .succ hn (by rw [succs_get hk]; exact this)⟩ h4 hq

theorem Chain.dec {stop p qs} (h : Chain P stop p qs) : ∀ q ∈ qs, ∃ i, decode q.slot = some i := by
  induction h with
  | nil => simp
  | one h1 h2 h3 h4 h5 ih =>
    intro q hq
    rcases List.mem_cons.1 hq with rfl | hq
    · exact ⟨_, h3⟩
    · exact ih q hq
  | wide h1 h2 h3 h4 h5 ih =>
    intro q hq
    rcases List.mem_cons.1 hq with rfl | hq
    · exact ⟨_, h4⟩
    · exact ih q hq

theorem Graph.edges (h : Graph P C) (b c : Nat) : b ∈ predsOf C c ↔ c ∈ succsOf C b := by
  constructor
  · intro hm
    obtain ⟨k, hk, hm⟩ := mem_preds hm
    obtain ⟨k', hk'⟩ := h.lt_pred hk hm
    rw [succs_get hk']
    exact ((h.edge b c k' k hk' hk).2.1).2 hm
  · intro hm
    obtain ⟨k, hk, hm⟩ := mem_succs hm
    obtain ⟨k', hk'⟩ := h.lt_succ hk hm
    rw [preds_get hk']
    exact ((h.edge b c k k' hk hk').2.1).1 hm

theorem Graph.noEntry (h : Graph P C) : predsOf C 0 = [] := by
  rcases hl : predsOf C 0 with _ | ⟨p, ps⟩
  · rfl
  · exfalso
    have hp : p ∈ predsOf C 0 := by rw [hl]; simp
    obtain ⟨k, hk, hm⟩ := mem_preds hp
    obtain ⟨k', hk'⟩ := h.lt_pred hk hm
    have h1 := ((h.edge p 0 k' k hk' hk).2.1).2 hm
    obtain ⟨h2, h3⟩ := ((h.edge p 0 k' k hk' hk).1).1 h1
    rw [h.zero k hk] at h3
    have hlt : k'.stop - 1 < P.length := by have := (h.stop p k' hk').2.1; omega
    have hg := List.getElem?_eq_getElem hlt
    rw [flow_get hg] at h3
    cases hd : decode P[k'.stop - 1] with
    | none => rw [hd] at h3; change ((0 : Nat) : Int) ∈ [((k'.stop - 1 : Nat) : Int) + 1] at h3; simp at h3; omega
    | some i =>
      rw [hd] at h3
      have hj := fun off => h.ws.start (k'.stop - 1) _ i off hg hd
      cases i with
      | ja off => have := hj off rfl; rw [flowI_ja] at h3; simp at h3; omega
      | jcc w c d src off => have := hj off rfl; rw [flowI_jcc] at h3; simp at h3; omega
      | exit => rw [flowI_exit] at h3; simp at h3
      | _ => change ((0 : Nat) : Int) ∈ [((k'.stop - 1 : Nat) : Int) + 1] at h3; simp at h3; omega

theorem Graph.fin (h : Graph P C) {n : Nat} {s : LSt} (hl : liftBlocks n C = .ok s) : ∃ g, Fin C g s := by
  obtain ⟨g, hg, h0⟩ := liftBlocks_spec (fun b c hm => (h.edges b c).1 hm) hl
  refine ⟨g, hg, h0, h.edges, ?_, h.noEntry, ?_⟩
  · intro b hb p hp
    obtain ⟨k, hk, hm⟩ := mem_preds hp
    obtain ⟨k', hk'⟩ := h.lt_pred hk hm
    have h1 := ((h.edge p b k' k hk' hk).2.1).2 hm
    obtain ⟨h2, h3⟩ := ((h.edge p b k' k hk' hk).1).1 h1
    have hlt : k'.start < P.length := by have := (h.stop p k' hk').2.1; omega
    obtain ⟨c, kc, hkc, hr, h4, h5⟩ := h.reach_slot (by omega) (h.ws.live k'.start hlt)
    have := h.one c p kc k' hkc hk' h4 h5 (Nat.le_refl _) h2
    exact this ▸ hr
  · intro b q hq
    unfold insnsOf at hq
    split at hq
    · rename_i k hk; exact (h.chain b k hk).dec q hq
    · simp at hq

/-! ## Running the IR -/

theorem run_add (W : IR.World) (f : Fn) (a n : Nat) : ∀ (b : Nat) (rest : List Nat) (τ : IR.St),
    IR.run W f (a + n) b rest τ = match IR.run W f a b rest τ with
      | .running b' r' τ' => IR.run W f n b' r' τ'
      | r => r := by
  induction a with
  | zero => intro b rest τ; simp [IR.run]
  | succ a ih =>
    intro b rest τ
    rw [show a + 1 + n = (a + n) + 1 by omega]
    simp only [IR.run]
    cases IR.step W f b rest τ with
    | goto b' r' τ' => exact ih b' r' τ'
    | done x => rfl
    | thrown => rfl
    | stuck => rfl

theorem run_one {W : IR.World} {f : Fn} {b : Nat} {rest : List Nat} {τ : IR.St} {b' r' τ'} (h : IR.step W f b rest τ = .goto b' r' τ') :
    IR.run W f 1 b rest τ = .running b' r' τ' := by simp [IR.run, h]

theorem run_execL {W : IR.World} {f : Fn} {b : Nat} {xs ys : List Nat} {τ τ' : IR.St} (h : ExecL W f.insn xs τ τ') :
    ∃ n, n ≤ 1 ∧ IR.run W f n b (xs ++ ys) τ = .running b ys τ' := by
  rcases h with ⟨rfl, rfl⟩ | ⟨x, rfl, ⟨h1, h2, h3, h4, h5⟩, h6⟩
  · exact ⟨0, by omega, rfl⟩
  · refine ⟨1, Nat.le_refl _, run_one ?_⟩
    simp only [List.cons_append, List.nil_append, IR.step]
    rw [if_neg h1, h2, if_neg (by simp), if_neg h3, if_neg h4, if_neg h5, h6]

theorem decode_call {s : Slot} {fid : BitVec 32} (h : decode s = some (.call fid)) : s.src = 0 ∧ fid = s.imm := by
  unfold decode at h
  dsimp only at h
  have hcls : s.code.toNat % 8 = 0 ∨ s.code.toNat % 8 = 1 ∨ s.code.toNat % 8 = 2 ∨ s.code.toNat % 8 = 3 ∨
    s.code.toNat % 8 = 4 ∨ s.code.toNat % 8 = 5 ∨ s.code.toNat % 8 = 6 ∨ s.code.toNat % 8 = 7 := by omega
  rcases hcls with hc | hc | hc | hc | hc | hc | hc | hc <;> simp only [hc] at h
  all_goals repeat' split at h
  all_goals first
    | (simp at h; done)
    | (simp at h; rename_i h2; exact ⟨h2.2, h.symm⟩)

theorem irCond_spec {c : Cond} {o : Op} (h : irCond c = some o) :
    o.condJmp = true ∧ Flat.condOp o = some c ∧ o ≠ .ja := by
  cases c <;> simp only [irCond] at h <;> first | (cases h; done) | (cases h; exact ⟨rfl, rfl, by simp⟩)

theorem bbAt_spec {pos : Int} {t : Nat} (h : bbAt C pos = .ok t) : ∃ k, C[t]? = some k ∧ (k.start : Int) = pos := by
  unfold bbAt at h
  split at h
  · rename_i b hb
    cases h
    rw [List.findIdx?_eq_some_iff_getElem] at hb
    obtain ⟨h1, h2, _⟩ := hb
    exact ⟨C[t], List.getElem?_eq_getElem h1, by simpa using h2⟩
  · cases h

/-- The machine is at slot `pc` and the IR in block `b` before the instructions `rest`. -/
structure Point (P : List Slot) (C : List Blk) (s : LSt) (pc : Nat) (σ : Bpf.St) (b : Nat) (rest : List Nat) (τ : IR.St)
    (k : Blk) (qs : List PreInsn) (m : M) : Prop where
  blk : C[b]? = some k
  reach : Reach C b
  chain : Chain P k.stop pc qs
  low : k.start ≤ pc
  pt : Pt C s b qs rest m
  rel : Rel m σ τ
  fall : qs = [] → pc < P.length → Bpf.flow P (k.stop - 1) = [(k.stop : Int)]

variable {g : Gh} {s : LSt}

theorem Point.enter (hG : Graph P C) (hF : Fin C g s) {b t : Nat} {k kt : Blk} {σ τ} (hk : C[b]? = some k) (hr : Reach C b)
    (ht : t ∈ k.succs) (hkt : C[t]? = some kt) (hrel : Rel (look s b) σ τ) :
    ∃ τ', IR.enter (toFn C s) b t τ = .goto t (g.code t) τ' ∧ Point P C s kt.start σ t (g.code t) τ' kt kt.insns (g.start t) := by
  obtain ⟨τ', h1, h2⟩ := hF.enter hr (by rw [succs_get hk]; exact ht) hrel
  have hrt : Reach C t := by obtain ⟨n, hn⟩ := hr; exact ⟨n + 1, .succ hn (by rw [succs_get hk]; exact ht)⟩
  refine ⟨τ', h1, hkt, hrt, hG.chain t kt hkt, Nat.le_refl _, ?_, h2, ?_⟩
  · have := hF.pt hrt
    rw [insns_get hkt] at this
    exact this
  · intro h3 h4
    have h5 := hG.chain t kt hkt
    rw [h3] at h5
    have h6 := (hG.stop t kt hkt).2.2 h4
    have := h5.nil_eq
    omega

/-- The IR can follow one machine step, with at most `N` steps. -/
def Follows (N : Nat) (W : Bpf.World) (WI : IR.World) (P : List Slot) (C : List Blk) (s : LSt) (pc : Nat) (σ : Bpf.St) (b : Nat) (rest : List Nat)
    (τ : IR.St) : Prop :=
  (∀ pc' σ', Bpf.step W P pc σ = .goto pc' σ' → ∃ (q n b' : Nat) (rest' : List Nat) (τ' : IR.St), pc' = (q : Int) ∧
      IR.run WI (toFn C s) n b rest τ = .running b' rest' τ' ∧ (0 < n ∨ pc < q) ∧ n ≤ N ∧ ∃ k qs m, Point P C s q σ' b' rest' τ' k qs m) ∧
  (∀ x σ', Bpf.step W P pc σ = .done x σ' → ∃ (n : Nat) (τ' : IR.St), n ≤ N ∧ IR.run WI (toFn C s) n b rest τ = .done x τ' ∧
      τ'.mem = σ'.mem ∧ τ'.trace = σ'.trace.map cutEv)

theorem Pt.tail {b : Nat} {q : PreInsn} {qs : List PreInsn} {rest : List Nat} {m : M} (h : Pt C s b (q :: qs) rest m) :
    ∃ defd a xs ys m1, plan C defd q = .ok a ∧ Tr1 s.insn a m xs m1 ∧ rest = xs ++ ys ∧ Pt C s b qs ys m1 ∧
      (∀ x ∈ xs, ∀ r, m r ≠ some (.insn x)) := by
  obtain ⟨as, hp, ht⟩ := h.tr
  cases hp with
  | @cons _ _ a as defd hpl hoff hp' =>
    cases ht with
    | @cons _ _ _ xs m1 ys _ h0 h1 =>
      have hnd := h.nodup
      rw [List.nodup_append] at hnd
      refine ⟨defd, a, xs, ys, m1, hpl, h0, rfl, ⟨⟨as, hp', h1⟩, ?_, hnd.2.1, fun q' hq' => h.dec q' (by simp [hq'])⟩,
        fun x hx => h.fresh x (by simp [hx])⟩
      intro x hx r hr
      rcases h0.vals hr with ⟨k, hk⟩ | h2
      · exact h.fresh x (by simp [hx]) k hk
      · exact hnd.2.2 x h2 x hx rfl

theorem Pt.last {b : Nat} {rest : List Nat} {m : M} (h : Pt C s b [] rest m) : rest = [] ∧ m = look s b := by
  obtain ⟨as, hp, ht⟩ := h.tr
  cases hp
  cases ht
  exact ⟨rfl, rfl⟩

theorem step_at {W : Bpf.World} {pc : Nat} {sl : Slot} {i : Instr} {σ : Bpf.St} (hg : P[pc]? = some sl) (hd : decode sl = some i)
    (hc : isCtl i = false) (hl : ∀ d k, i ≠ .ldimm d k) :
    Bpf.step W P pc σ = match execInstr W i σ with | none => .stuck | some σ' => .goto ((pc + 1 : Nat) : Int) σ' := by
  have hp : ¬ ((pc : Int) < 0) := by omega
  cases i <;> first
    | exact Bool.noConfusion hc
    | (exact absurd rfl (hl _ _))
    | (simp only [Bpf.step, if_neg hp, Int.toNat_natCast, hg, hd]; rfl)

theorem effect_exec {W : Bpf.World} {q : PreInsn} {i : Instr} {σ : Bpf.St} (hl : ∀ d k, i ≠ .ldimm d k) : effect W q i σ = execInstr W i σ := by
  cases i <;> first | rfl | exact absurd rfl (hl _ _)

theorem flowI_straight {p : Int} {i : Instr} (hc : isCtl i = false) : flowI p (some i) = [p + 1] := by
  cases i <;> first | rfl | exact Bool.noConfusion hc

theorem sim_cons {W : Bpf.World} {WI : IR.World} (hW : Agree W WI) (hG : Graph P C) (hF : Fin C g s)
    (hcl : ∀ sl ∈ P, ∀ i, decode sl = some i → Clean i) {pc : Nat} {σ : Bpf.St} {b : Nat} {rest : List Nat} {τ : IR.St} {k : Blk}
    {q : PreInsn} {qs : List PreInsn} {m : M} (h : Point P C s pc σ b rest τ k (q :: qs) m) : Follows 1 W WI P C s pc σ b rest τ := by
  obtain ⟨defd, a, xs, ys, m1, hpl, ht, rfl, hpt, hfr⟩ := h.pt.tail
  have hpc : ¬ ((pc : Int) < 0) := by omega
  cases h.chain with
  | @wide _ sl s2 d kk _ h1 h2 h3 h4 h5 =>
    have hst : Bpf.step W P pc σ = .goto ((pc + 2 : Nat) : Int) (σ.set d.toNat (ldVal W kk sl.imm s2.imm)) := by
      simp only [Bpf.step, if_neg hpc, Int.toNat_natCast, h2, h4, h3]; rfl
    refine ⟨?_, ?_⟩
    · intro pc' σ' he
      rw [hst] at he
      cases he
      obtain ⟨τ', e1, e2, e3⟩ := straight_sim (W := W) (σ' := σ.set d.toNat (ldVal W kk sl.imm s2.imm)) hW (q := ⟨sl, true, s2.imm ++ sl.imm, pc⟩)
        h4 rfl (hcl sl (List.mem_of_getElem? h2) _ h4) (by simp) hpl ht hfr h.rel rfl
      obtain ⟨n, hn1, hn⟩ := run_execL (f := toFn C s) (b := b) (ys := ys) e1
      refine ⟨pc + 2, n, b, ys, τ', rfl, hn, .inr (by omega), hn1, k, qs, m1, h.blk, h.reach, h5, by have := h.low; omega, hpt, e2, ?_⟩
      intro hq hlt
      subst hq
      have h5' := h5.nil_eq
      have hz : s2.code = 0 := by
        obtain ⟨s2', h6, h7⟩ := hG.ws.legal.wide pc sl d kk h2 h4
        rw [h3] at h6; cases h6; exact h7
      rw [show k.stop - 1 = pc + 1 by omega, flow_get h3, decode_zero hz]
      change [((pc + 1 : Nat) : Int) + 1] = _
      simp; omega
    · intro x σ' he
      rw [hst] at he; cases he
  | @one _ sl i x _ h1 h2 h3 h4 h5 =>
    by_cases hc : isCtl i = false
    · have hst := step_at (W := W) (σ := σ) h2 h3 hc h4
      refine ⟨?_, ?_⟩
      · intro pc' σ' he
        rw [hst] at he
        cases hx : execInstr W i σ with
        | none => rw [hx] at he; cases he
        | some σ1 =>
          rw [hx] at he
          cases he
          obtain ⟨τ', e1, e2, e3⟩ := straight_sim hW (q := ⟨sl, false, x, pc⟩)
            h3 hc (hcl sl (List.mem_of_getElem? h2) _ h3) (fun f e => by subst e; exact decode_call h3) hpl ht hfr h.rel
            (by rw [effect_exec h4]; exact hx)
          obtain ⟨n, hn1, hn⟩ := run_execL (f := toFn C s) (b := b) (ys := ys) e1
          refine ⟨pc + 1, n, b, ys, τ', rfl, hn, .inr (by omega), hn1, k, qs, m1, h.blk, h.reach, h5, by have := h.low; omega, hpt, e2, ?_⟩
          intro hq hlt
          subst hq
          have h5' := h5.nil_eq
          rw [show k.stop - 1 = pc by omega, flow_get h2, h3, flowI_straight hc]
          simp; omega
      · intro y σ' he
        rw [hst] at he
        split at he <;> cases he
    · -- jumps and exit
      have hterm : isTerminator P pc := by
        refine ⟨sl, i, h2, h3, ?_⟩
        cases i <;> first | exact absurd rfl hc | exact .inl rfl | exact .inr rfl
      have hlast : k.stop = pc + 1 := by
        rcases Nat.lt_or_ge (pc + 1) k.stop with h6 | h6
        · exact absurd hterm (hG.inner b k h.blk pc h.low h6)
        · omega
      have hqs : qs = [] := by
        rw [← hlast] at h5
        cases h5 with
        | nil => rfl
        | one h6 => omega
        | wide h6 => omega
      subst hqs
      obtain ⟨rfl, rfl⟩ := hpt.last
      have hlow := h.low
      have hflow : ∀ t kt, C[t]? = some kt → (kt.start : Int) ∈ Bpf.flow P pc → t ∈ k.succs := by
        intro t kt hkt hf
        refine ((hG.edge b t k kt h.blk hkt).1).2 ⟨by omega, ?_⟩
        rw [show k.stop - 1 = pc by omega]; exact hf
      rw [plan_decode C defd _ (i := i) h3] at hpl
      cases i with
      | ja off =>
        simp only [planI] at hpl
        obtain ⟨t, hb, hpl⟩ := Out.bind_eq_ok.1 hpl
        cases hpl
        obtain ⟨kt, hkt, hpos⟩ := bbAt_spec hb
        have hst : Bpf.step W P pc σ = .goto (pc + 1 + off.toInt) σ := by
          simp only [Bpf.step, if_neg hpc, Int.toNat_natCast, h2, h3]
        generalize hm1 : look s b = m1 at ht
        cases ht with
        | @emit _ _ _ _ _ av vs y e1 e2 e3 e4 =>
          simp only [wrO] at hm1
          subst hm1
          obtain ⟨τ', f1, f2⟩ := Point.enter hG hF h.blk h.reach
            (hflow t kt hkt (by rw [flow_get h2, h3, flowI_ja]; simp; omega)) hkt h.rel
          refine ⟨?_, fun y σ' he => by rw [hst] at he; cases he⟩
          intro pc' σ' he
          rw [hst] at he; cases he
          refine ⟨kt.start, 1, t, g.code t, τ', by omega, run_one ?_, .inl Nat.one_pos, Nat.le_refl _, kt, _, _, f2⟩
          simp only [List.cons_append, List.nil_append, IR.step]
          have : (toFn C s).insn y = s.insn y := rfl
          rw [this, e3]
          exact f1
      | jcc w c d src off =>
        simp only [planI] at hpl
        cases hc2 : irCond c with
        | none => rw [hc2] at hpl; cases hpl
        | some o =>
          rw [hc2] at hpl
          dsimp only at hpl
          obtain ⟨t1, hb1, hpl⟩ := Out.bind_eq_ok.1 hpl
          obtain ⟨t2, hb2, hpl⟩ := Out.bind_eq_ok.1 hpl
          cases hpl
          obtain ⟨k1, hk1, hp1⟩ := bbAt_spec hb1
          obtain ⟨k2, hk2, hp2⟩ := bbAt_spec hb2
          obtain ⟨i1, i2, i3⟩ := irCond_spec hc2
          generalize hm1 : look s b = m1 at ht
          cases ht with
          | @emit _ _ _ _ _ av vs y e1 e2 e3 e4 =>
            simp only [wrO] at hm1
            subst hm1
            obtain ⟨v0, vs', e5, e6, rfl⟩ := rdOpds_cons.1 e2
            obtain ⟨v1, vs'', e7, e8, rfl⟩ := rdOpds_cons.1 e6
            cases e8
            have ev0 := h.rel.opd e5
            have ev1 := h.rel.opd e7
            rw [opdVal_opd] at ev1
            have htk : taken (s.insn y) τ = some (Bpf.cond w c (σ.reg d.toNat) (src.val σ)) := by
              rw [e3]
              simp [taken, i2, width_ty, ev0, ev1, opdVal]
            have hst : Bpf.step W P pc σ = if Bpf.cond w c (σ.reg d.toNat) (src.val σ) then .goto (pc + 1 + off.toInt) σ
                else .goto (pc + 1) σ := by
              simp only [Bpf.step, if_neg hpc, Int.toNat_natCast, h2, h3]
            have hop : ((toFn C s).insn y).op = o ∧ ((toFn C s).insn y).bb1 = t1 ∧ ((toFn C s).insn y).bb2 = t2 := by
              have : (toFn C s).insn y = s.insn y := rfl
              rw [this, e3]; exact ⟨rfl, rfl, rfl⟩
            have hir : IR.step WI (toFn C s) b ([y] ++ []) τ =
                if Bpf.cond w c (σ.reg d.toNat) (src.val σ) then IR.enter (toFn C s) b t2 τ else IR.enter (toFn C s) b t1 τ := by
              simp only [List.cons_append, List.nil_append, IR.step]
              rw [hop.1, if_neg i3, if_pos i1]
              have : (toFn C s).insn y = s.insn y := rfl
              rw [this, htk, ← this, hop.2.1, hop.2.2]
              cases Bpf.cond w c (σ.reg d.toNat) (src.val σ) <;> rfl
            have s1 : t1 ∈ k.succs := hflow t1 k1 hk1 (by rw [flow_get h2, h3, flowI_jcc]; simp; omega)
            have s2 : t2 ∈ k.succs := hflow t2 k2 hk2 (by rw [flow_get h2, h3, flowI_jcc]; simp; omega)
            refine ⟨?_, fun y σ' he => by rw [hst] at he; split at he <;> cases he⟩
            intro pc' σ' he
            rw [hst] at he
            cases hcond : Bpf.cond w c (σ.reg d.toNat) (src.val σ) with
            | true =>
              rw [hcond] at he hir
              simp only [if_true] at he hir
              cases he
              obtain ⟨τ', f1, f2⟩ := Point.enter hG hF h.blk h.reach s2 hk2 h.rel
              exact ⟨k2.start, 1, t2, g.code t2, τ', by omega, run_one (by rw [hir]; exact f1), .inl Nat.one_pos, Nat.le_refl _, k2, _, _, f2⟩
            | false =>
              rw [hcond] at he hir
              simp only [Bool.false_eq_true, if_false] at he hir
              cases he
              obtain ⟨τ', f1, f2⟩ := Point.enter hG hF h.blk h.reach s1 hk1 h.rel
              exact ⟨k1.start, 1, t1, g.code t1, τ', by omega, run_one (by rw [hir]; exact f1), .inl Nat.one_pos, Nat.le_refl _, k1, _, _, f2⟩
      | exit =>
        simp only [planI] at hpl
        cases hpl
        have hst : Bpf.step W P pc σ = .done (σ.reg 0) σ := by
          simp only [Bpf.step, if_neg hpc, Int.toNat_natCast, h2, h3]
        generalize hm1 : look s b = m1 at ht
        cases ht with
        | @emit _ _ _ _ _ av vs y e1 e2 e3 e4 =>
          obtain ⟨v0, vs', e5, e6, rfl⟩ := rdOpds_cons.1 e2
          cases e6
          have ev0 := h.rel.opd e5
          refine ⟨fun pc' σ' he => (by rw [hst] at he; cases he), ?_⟩
          intro z σ' he
          rw [hst] at he; cases he
          refine ⟨1, τ, Nat.le_refl _, ?_, h.rel.mem, h.rel.trace⟩
          have hs : IR.step WI (toFn C s) b ([y] ++ []) τ = .done (σ.reg 0) := by
            simp only [List.cons_append, List.nil_append, IR.step]
            have : (toFn C s).insn y = s.insn y := rfl
            rw [this, e3]
            simp [Norm.Op.condJmp, ev0, opdVal]
          simp only [IR.run, hs]
      | _ => exact absurd rfl hc

/-- At the end of a block that runs on, the IR enters the next block. -/
theorem Point.settle {WI : IR.World} (hG : Graph P C) (hF : Fin C g s) {pc : Nat} {σ : Bpf.St} {b : Nat} {rest : List Nat} {τ : IR.St} {k : Blk}
    {m : M} (h : Point P C s pc σ b rest τ k [] m) (hlt : pc < P.length) :
    ∃ (c : Nat) (τ' : IR.St) (kc : Blk) (q' : PreInsn) (qs' : List PreInsn), IR.run WI (toFn C s) 1 b rest τ = .running c (g.code c) τ' ∧
      Point P C s pc σ c (g.code c) τ' kc (q' :: qs') (g.start c) := by
  obtain ⟨rfl, rfl⟩ := h.pt.last
  have hpc : pc = k.stop := h.chain.nil_eq
  have hfl := h.fall rfl hlt
  have hlow := h.low
  have hss : k.start < k.stop := (hG.stop b k h.blk).2.2 (by omega)
  obtain ⟨c, kc, hkc, hcs⟩ : ∃ (c : Nat) (kc : Blk), C[c]? = some kc ∧ kc.start = pc := by
    rcases hG.flow b k h.blk (k.stop - 1) pc (by omega) (by omega) (by rw [hfl, hpc]; simp) hlt with ⟨_, h2⟩ | ⟨_, h2⟩
    · omega
    · exact h2
  have hmem : c ∈ k.succs := ((hG.edge b c k kc h.blk hkc).1).2 ⟨hss, by rw [hfl, hcs, hpc]; simp⟩
  have hsucc : k.succs = [c] := by
    have hall : ∀ t ∈ k.succs, t = c := by
      intro t ht
      obtain ⟨kt, hkt⟩ := hG.lt_succ h.blk ht
      have := (((hG.edge b t k kt h.blk hkt).1).1 ht).2
      rw [hfl] at this
      simp at this
      exact hG.inj t c kt kc hkt hkc (by omega)
    have hnd := (hG.edge b c k kc h.blk hkc).2.2.1
    cases hl : k.succs with
    | nil => rw [hl] at hmem; simp at hmem
    | cons t ts =>
      rw [hl] at hall hnd
      have := hall t (by simp)
      subst this
      cases ts with
      | nil => rfl
      | cons u us =>
        have h1 := hall u (by simp)
        subst h1
        simp at hnd
  obtain ⟨τ', f1, f2⟩ := Point.enter hG hF h.blk h.reach hmem hkc h.rel
  have hrun : IR.run WI (toFn C s) 1 b [] τ = .running c (g.code c) τ' := by
    apply run_one
    have : (toFn C s).succs b = [c] := by rw [← hsucc]; exact succs_get h.blk
    simp only [IR.step, this, f1]
  rw [hcs] at f2
  have hne : ∃ q' qs', kc.insns = q' :: qs' := by
    cases hi : kc.insns with
    | cons q' qs' => exact ⟨q', qs', rfl⟩
    | nil =>
      exfalso
      have h5 := hG.chain c kc hkc
      rw [hi] at h5
      have h6 := (hG.stop c kc hkc).2.2 (by omega)
      have := h5.nil_eq
      omega
  obtain ⟨q', qs', hq⟩ := hne
  rw [hq] at f2
  exact ⟨c, τ', kc, q', qs', hrun, f2⟩

theorem sim_step {W : Bpf.World} {WI : IR.World} (hW : Agree W WI) (hG : Graph P C) (hF : Fin C g s)
    (hcl : ∀ sl ∈ P, ∀ i, decode sl = some i → Clean i) {pc : Nat} {σ : Bpf.St} {b : Nat} {rest : List Nat} {τ : IR.St} {k : Blk}
    {qs : List PreInsn} {m : M} (h : Point P C s pc σ b rest τ k qs m) : Follows 2 W WI P C s pc σ b rest τ := by
  cases qs with
  | cons q qs =>
    obtain ⟨g1, g2⟩ := sim_cons hW hG hF hcl h
    refine ⟨fun pc' σ' he => ?_, fun x σ' he => ?_⟩
    · obtain ⟨q, n, b', rest', τ', e1, e2, e3, e4, e5⟩ := g1 pc' σ' he
      exact ⟨q, n, b', rest', τ', e1, e2, e3, by omega, e5⟩
    · obtain ⟨n, τ', e1, e2⟩ := g2 x σ' he
      exact ⟨n, τ', by omega, e2⟩
  | nil =>
    by_cases hlt : pc < P.length
    · obtain ⟨c, τ', kc, q', qs', hrun, f2⟩ := Point.settle (WI := WI) hG hF h hlt
      obtain ⟨g1, g2⟩ := sim_cons hW hG hF hcl f2
      refine ⟨?_, ?_⟩
      · intro pc' σ' he
        obtain ⟨q, n, b', rest', τ'', e1, e2, _, hn, e3⟩ := g1 pc' σ' he
        exact ⟨q, 1 + n, b', rest', τ'', e1, by rw [run_add, hrun]; exact e2, .inl (by omega), by omega, e3⟩
      · intro x σ' he
        obtain ⟨n, τ'', hn, e1, e2⟩ := g2 x σ' he
        exact ⟨1 + n, τ'', by omega, by rw [run_add, hrun]; exact e1, e2⟩
    · have hst : Bpf.step W P pc σ = .stuck := by
        have hp : ¬ ((pc : Int) < 0) := by omega
        simp [Bpf.step, hp, List.getElem?_eq_none (show P.length ≤ pc by omega)]
      exact ⟨fun _ _ he => (by rw [hst] at he; cases he), fun _ _ he => by rw [hst] at he; cases he⟩

theorem step_lt {W : Bpf.World} {P : List Slot} {pc : Nat} {σ σ' : Bpf.St} {pc' : Int} (h : Bpf.step W P pc σ = .goto pc' σ') : pc < P.length := by
  refine Nat.lt_of_not_le fun hle => ?_
  have hp : ¬ ((pc : Int) < 0) := by omega
  simp [Bpf.step, hp, List.getElem?_eq_none hle] at h

theorem sim_run {W : Bpf.World} {WI : IR.World} (hW : Agree W WI) (hG : Graph P C) (hF : Fin C g s)
    (hcl : ∀ sl ∈ P, ∀ i, decode sl = some i → Clean i) (n : Nat) : ∀ {pc : Nat} {σ : Bpf.St} {b : Nat} {rest : List Nat} {τ : IR.St} {k : Blk}
    {qs : List PreInsn} {m : M}, Point P C s pc σ b rest τ k qs m →
    (∀ pc' σ', Bpf.run W P n pc σ = .goto pc' σ' → ∃ (q j b' : Nat) (rest' : List Nat) (τ' : IR.St), pc' = (q : Int) ∧
      IR.run WI (toFn C s) j b rest τ = .running b' rest' τ' ∧ n + pc ≤ j * (P.length + 1) + q ∧ ∃ k qs m, Point P C s q σ' b' rest' τ' k qs m) ∧
    (∀ x σ', Bpf.run W P n pc σ = .done x σ' → ∃ (j : Nat) (τ' : IR.St), IR.run WI (toFn C s) j b rest τ = .done x τ' ∧
      τ'.mem = σ'.mem ∧ τ'.trace = σ'.trace.map cutEv) := by
  induction n with
  | zero =>
    intro pc σ b rest τ k qs m h
    refine ⟨?_, fun x σ' he => by simp [Bpf.run] at he⟩
    intro pc' σ' he
    simp only [Bpf.run] at he
    cases he
    exact ⟨pc, 0, b, rest, τ, rfl, rfl, by omega, k, qs, m, h⟩
  | succ n ih =>
    intro pc σ b rest τ k qs m h
    obtain ⟨g1, g2⟩ := sim_step hW hG hF hcl h
    simp only [Bpf.run]
    cases hst : Bpf.step W P pc σ with
    | goto pc1 σ1 =>
      obtain ⟨q, j, b', rest', τ', rfl, e2, hj, _, k', qs', m', e3⟩ := g1 pc1 σ1 hst
      have hlt := step_lt hst
      obtain ⟨i1, i2⟩ := ih e3
      refine ⟨?_, ?_⟩
      · intro pc' σ' he
        obtain ⟨q2, j2, b2, r2, τ2, f1, f2, f4, f3⟩ := i1 pc' σ' he
        refine ⟨q2, j + j2, b2, r2, τ2, f1, by rw [run_add, e2]; exact f2, ?_, f3⟩
        rw [Nat.add_mul]
        rcases hj with hj | hj
        · have := Nat.mul_le_mul_right (P.length + 1) hj
          omega
        · omega
      · intro x σ' he
        obtain ⟨j2, τ2, f1, f2⟩ := i2 x σ' he
        exact ⟨j + j2, τ2, by rw [run_add, e2]; exact f1, f2⟩
    | done x σ1 =>
      refine ⟨fun _ _ he => (by cases he), ?_⟩
      intro y σ' he
      cases he
      obtain ⟨n, τ', _, e⟩ := g2 x σ1 hst
      exact ⟨n, τ', e⟩
    | stuck => exact ⟨fun _ _ he => (by cases he), fun _ _ he => by cases he⟩
end
end Verif.Lift
