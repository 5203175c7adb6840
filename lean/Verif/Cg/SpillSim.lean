import Verif.Cg.Feed
import Verif.Cg.Spill
import Verif.RemPhi.Sim
/-!
# A function in which an instruction has been spilled does the same
-/
namespace Verif.Cg
open Verif Verif.IR Verif.Edit Verif.Loc
open Verif.RemPhi (All2)

/-- An instruction does the same with other operands if they have the same values. -/
theorem exec_alias {W : World} {l k : Nat → Nat} {x : Nat} {i : Insn} {s : Val → Val} {τ : Loc.St} (hx : k x = l x)
    (hv : ∀ w ∈ operands i, IR.eval (view k τ) (s w) = IR.eval (view l τ) w)
    (hl : i.op = .load → ∀ a, i.vals = [.insn a] → s (.insn a) = .insn a ∧ k a = l a)
    (hn : i.op = .load → ∀ w ∈ i.vals, (∃ a, s w = .insn a) → ∃ a, w = .insn a)
    (hst : i.op = .store → ∀ w, i.vals.head? = some w → s w = w ∧ ∀ a, w = .insn a → k a = l a) :
    Loc.exec W k x (mapOps s i) τ = Loc.exec W l x i τ := by
  have hvv : ∀ w ∈ i.vals, IR.eval (view k τ) (s w) = IR.eval (view l τ) w := fun w hw => hv w (by unfold operands; simp [hw])
  by_cases h1 : i.op = .alloc
  · simp [Loc.exec, mapOps_op, h1]
  by_cases h2 : i.op = .call
  · simp [Loc.exec, mapOps_op, h2]; rfl
  by_cases h3 : i.op = .store
  · obtain ⟨op, vals, phi, addr, addrOff, addrKind, aluOp, vrType, bb1, bb2, aux, immKind, imm64⟩ := i
    dsimp only at h3 hvv hst
    subst h3
    dsimp only [Loc.exec, mapOps]
    rcases vals with _ | ⟨v0, _ | ⟨v1, _ | ⟨_, _⟩⟩⟩
    · rfl
    · simp only [List.map_cons, List.map_nil]
      generalize s v0 = w
      cases v0 <;> cases w <;> rfl
    · obtain ⟨e0, e1⟩ := hst rfl v0 rfl
      have e2 := hvv v1 (by simp)
      simp only [List.map_cons, List.map_nil, e0]
      cases v0 with
      | insn a => dsimp only; rw [e2, e1 a rfl]
      | const => rfl
      | undef => rfl
    · simp only [List.map_cons]
      generalize s v0 = w
      cases v0 <;> cases w <;> rfl
  by_cases h4 : i.op = .storeraw
  · have ha : IR.eval (view k τ) (s i.addr) = IR.eval (view l τ) i.addr := hv _ (by unfold operands; simp [h4, raw])
    rw [exec_raw h4, exec_raw (i := mapOps s i) h4, exec_mem (σ := view l τ) (σ' := view k τ) rfl hvv ha h4]
  · rw [exec_other h1 h2 h3 h4, exec_other (i := mapOps s i) h1 h2 h3 h4, hx,
      exec_out (σ := view l τ) (σ' := view k τ) rfl hvv (fun h => hv _ (by unfold operands; simp [h, raw]))
        (fun h a e => ⟨(hl h a e).1, by show τ.cell (k a) = τ.cell (l a); rw [(hl h a e).2]⟩) hn h1 h2 h3 h4]

/-- What is not written to stays. -/
theorem exec_keep {W : World} {l : Nat → Nat} {x : Nat} {i : Insn} {τ τ1 : Loc.St} (hc : Loc.control i.op = false) (he : Loc.exec W l x i τ = some τ1)
    {q : Nat} (hq : q ∉ Loc.writes l x i) : τ1.cell q = τ.cell q := by
  have hs : Sub (fun _ => True) id l l id := ⟨fun _ _ _ _ => rfl, rfl, fun y _ => ⟨y, rfl, rfl⟩⟩
  rcases exec_two (W := W) hs (x := x) (i := i) (τ := τ) (τ' := τ) (fun _ _ _ _ => trivial) hc rfl (fun _ _ => rfl) rfl rfl
    (fun _ _ => rfl) (fun _ _ _ => rfl) with ⟨h1, _⟩ | ⟨τa, τb, h1, h2, h3⟩
  · rw [h1] at he; cases he
  · rw [h1] at he
    cases he
    exact h3.old q hq

theorem trunc8 (v : BitVec 64) : Flat.truncBytes 8 v = v := by unfold Flat.truncBytes; simp

theorem exec_reload {W : World} {k : Nat → Nat} {n a : Nat} {i : Insn} {τ : Loc.St} (h1 : i.op = .load) (h2 : i.vals = [.insn a]) (hw : W.wid a = 8) :
    Loc.exec W k n i τ = some (τ.set (k n) (τ.cell (k a))) := by
  rw [exec_other (by rw [h1]; simp) (by rw [h1]; simp) (by rw [h1]; simp) (by rw [h1]; simp)]
  simp [IR.exec, h1, h2, hw, trunc8, IR.St.set, view]

/-- An instruction that is executed immediately before block `b` is left. -/
def AtEnd (f : Fn) (N T : Nat → List Nat) (b n : Nat) : Prop :=
  n ∈ T b ∨ ∃ A z, codeOf f b = A ++ [z] ∧ isJmp (f.insn z).op = true ∧ n ∈ N z

/-- A load of the slot. -/
structure IsLoad (f g : Fn) (k : Nat → Nat) (a n : Nat) : Prop where
  op : (g.insn n).op = .load
  vals : (g.insn n).vals = [.insn a]
  place : k n = virt n
  new : f.next ≤ n

/-- The new places. -/
def NewAt (f : Fn) (slot : Nat) (q : Nat) : Prop := q = slot ∨ ∃ n, f.next ≤ n ∧ q = virt n

/-- `g` is `f` with `v` stored to the variable `a` by `st`, and loaded before its uses. -/
structure Spilt (f g : Fn) (R : List Nat) (l k : Nat → Nat) (v a st : Nat) (H N M T : Nat → List Nat) : Prop where
  entry : g.entry = f.entry
  succs : g.succs = f.succs
  phis : ∀ b ∈ R, phisOf g b = phisOf f b
  code : ∀ b ∈ R, codeOf g b = H b ++ (ex N M (codeOf f b) ++ T b)
  same : ∀ x, Live f x → k x = l x
  old : ∀ x, Live f x → ¬ NewAt f (k a) (l x)
  slot : 10 < k a ∧ ∀ n, k a ≠ virt n
  inj : ∀ x, Live f x → l x = l v → x = v
  big : 10 < l v
  loadI : ∀ b ∈ R, ∀ x ∈ codeOf f b, ∀ n ∈ N x, IsLoad f g k a n
  loadT : ∀ b ∈ R, ∀ n ∈ T b, IsLoad f g k a n
  aft : ∀ b ∈ R, ∀ x ∈ codeOf f b, M x = if x = v then [st] else []
  heads : ∀ b ∈ R, ∀ n ∈ H b, (g.insn n).op = .alloc ∨ n = st
  stored : ∀ b ∈ R, v ∈ phisOf f b → st ∈ H b
  store : g.insn st = mkStore a (.insn v)
  insn : ∀ b ∈ R, ∀ x ∈ codeOf f b, g.insn x = f.insn x ∨ ∃ n ∈ N x, g.insn x = mapOps (sub v (.insn n)) (f.insn x)
  phi : ∀ b ∈ R, ∀ x ∈ phisOf f b, All2 (fun o o' => o'.1 = o.1 ∧ (o'.2 = o.2 ∨ (o.2 = .insn v ∧ ∃ n, o'.2 = .insn n ∧ (o.1 ∈ R → AtEnd f N T o.1 n)))) (f.insn x).phi (g.insn x).phi
  tail : ∀ b ∈ R, ∀ A z, codeOf f b = A ++ [z] → isJmp (f.insn z).op = true → T b = []
  access : ∀ b ∈ R, ∀ x ∈ codeOf f b, (f.insn x).op = .load ∨ (f.insn x).op = .store → (f.insn x).vals.head? ≠ some (.insn v)
  live : Live f v
  calls : ∀ b ∈ R, ∀ x ∈ codeOf f b, (f.insn x).op = .call ∨ (f.insn x).op = .loadraw → (f.insn x).vals = []
  isin : ∀ b ∈ R, ∀ x ∈ f.body b, Live f x ∧ ∀ y, .insn y ∈ operands (f.insn x) → Live f y

variable {W : World} {f g : Fn} {R : List Nat} {l k : Nat → Nat} {v a st : Nat} {H N M T : Nat → List Nat}

/-- Before the rest of a block. -/
def Before (f : Fn) (l : Nat → Nat) (v slot : Nat) (b : Nat) (rest : List Nat) (τ : Loc.St) : Prop :=
  (Loc.Needed f l (l v) b rest → τ.cell slot = τ.cell (l v)) ∧ (rest = [] → ∀ A z, codeOf f b = A ++ [z] → isJmp (f.insn z).op = false)

/-- When a block is left. -/
def Leave (f : Fn) (l : Nat → Nat) (N T : Nat → List Nat) (v slot : Nat) (b : Nat) (τ : Loc.St) : Prop :=
  (Loc.Needed f l (l v) b [] → τ.cell slot = τ.cell (l v)) ∧ ∀ n, AtEnd f N T b n → τ.cell (virt n) = τ.cell slot

/-- The loads get the value of the slot. -/
theorem run_reloads (hw : W.wid a = 8) (hs : ∀ n, k a ≠ virt n) {b : Nat} {tail : List Nat} : ∀ (ns : List Nat) (τ : Loc.St), (∀ n ∈ ns, IsLoad f g k a n) →
    ∃ τ2, Leads W g k b (ns ++ tail) τ b tail τ2 ∧ Off (NewAt f (k a)) τ τ2 ∧ τ2.cell (k a) = τ.cell (k a) ∧
      (∀ n ∈ ns, τ2.cell (virt n) = τ.cell (k a)) ∧ ∀ q, τ.cell q = τ.cell (k a) → τ2.cell q = τ.cell (k a)
  | [], τ, _ => ⟨τ, .rfl, .rfl, rfl, by simp, fun _ h => h⟩
  | n :: ns, τ, h => by
    have hn := h n List.mem_cons_self
    have hne : k a ≠ k n := by rw [hn.place]; exact hs n
    have e1 : (τ.set (k n) (τ.cell (k a))).cell (k a) = τ.cell (k a) := by simp [Loc.St.set, hne]
    obtain ⟨τ2, h1, h2, h3, h4, h5⟩ := run_reloads hw hs (b := b) (tail := tail) ns (τ.set (k n) (τ.cell (k a))) (fun m hm => h m (List.mem_cons_of_mem _ hm))
    rw [e1] at h3 h4 h5
    refine ⟨τ2, ?_, ?_, h3, ?_, ?_⟩
    · exact (Leads.plain (by rw [hn.op]; rfl) (exec_reload hn.op hn.vals hw)).trans h1
    · refine Off.trans (Off.set ?_) h2
      exact .inr ⟨n, hn.new, hn.place⟩
    · intro m hm
      rcases List.mem_cons.1 hm with rfl | hm
      · refine h5 _ ?_
        rw [hn.place]; simp [Loc.St.set]
      · exact h4 m hm
    · intro q hq
      refine h5 q ?_
      simp only [Loc.St.set]
      split
      · rfl
      · exact hq

theorem Spilt.run_store (h : Spilt f g R l k v a st H N M T) {b : Nat} {tail : List Nat} (τ : Loc.St) :
    Leads W g k b (st :: tail) τ b tail (τ.set (k a) (τ.cell (l v))) := by
  refine Leads.plain (by rw [h.store]; rfl) ?_
  rw [h.store, ← h.same v h.live]
  rfl

theorem Spilt.ne (h : Spilt f g R l k v a st H N M T) {x : Nat} (hx : Live f x) : l x ≠ k a := fun e => h.old x hx (.inl e)

theorem spilt_heads (h : Spilt f g R l k v a st H N M T) {b : Nat} {tail : List Nat} : ∀ (ns : List Nat) (τ : Loc.St),
    (∀ n ∈ ns, (g.insn n).op = .alloc ∨ n = st) →
    ∃ τ2, Leads W g k b (ns ++ tail) τ b tail τ2 ∧ Off (NewAt f (k a)) τ τ2 ∧ (τ.cell (k a) = τ.cell (l v) ∨ st ∈ ns → τ2.cell (k a) = τ2.cell (l v))
  | [], τ, _ => ⟨τ, .rfl, .rfl, by simp⟩
  | n :: ns, τ, hn => by
    have hns := fun m hm => hn m (List.mem_cons_of_mem n hm)
    have hs : n = st → ∃ τ2, Leads W g k b ((n :: ns) ++ tail) τ b tail τ2 ∧ Off (NewAt f (k a)) τ τ2 ∧
        (τ.cell (k a) = τ.cell (l v) ∨ st ∈ n :: ns → τ2.cell (k a) = τ2.cell (l v)) := by
      intro e
      rw [e]
      obtain ⟨τ2, h1, h2, h3⟩ := spilt_heads h (b := b) (tail := tail) ns (τ.set (k a) (τ.cell (l v))) hns
      refine ⟨τ2, (h.run_store τ).trans h1, Off.trans (Off.set (.inl rfl)) h2, fun _ => h3 (.inl ?_)⟩
      simp [Loc.St.set, h.ne h.live]
    rcases hn n List.mem_cons_self with h1 | h1
    · by_cases e : n = st
      · exact hs e
      obtain ⟨τ2, h2, h3, h4⟩ := spilt_heads h (b := b) (tail := tail) ns τ hns
      refine ⟨τ2, ?_, h3, fun h5 => h4 (h5.imp_right (fun h6 => ?_))⟩
      · refine Leads.trans (Leads.plain (τ' := τ) (by rw [h1]; rfl) ?_) h2
        simp [Loc.exec, h1]
      · rcases List.mem_cons.1 h6 with h6 | h6
        · exact absurd h6.symm e
        · exact h6
    · exact hs h1

/-- The operands after the loads. -/
theorem Spilt.evals (h : Spilt f g R l k v a st H N M T) {b x : Nat} (hb : b ∈ R) (hx : x ∈ codeOf f b) {τ : Loc.St}
    (ha : .insn v ∈ operands (f.insn x) → ∀ n ∈ N x, τ.cell (virt n) = τ.cell (l v)) :
    ∃ s, g.insn x = mapOps s (f.insn x) ∧ (∀ w ∈ operands (f.insn x), IR.eval (view k τ) (s w) = IR.eval (view l τ) w) ∧
      ∀ w, w ≠ .insn v → s w = w := by
  have hxb : x ∈ f.body b := by rw [← phisOf_append f b]; exact List.mem_append_right _ hx
  obtain ⟨_, hop⟩ := h.isin b hb x hxb
  have hid : ∀ w ∈ operands (f.insn x), IR.eval (view k τ) w = IR.eval (view l τ) w := by
    intro w hw
    cases w with
    | insn y => exact congrArg some (congrArg τ.cell (h.same y (hop y hw)))
    | const => rfl
    | undef => rfl
  rcases h.insn b hb x hx with e | ⟨n, hn, e⟩
  · exact ⟨id, by rw [e, Loc.mapOps_id], hid, fun _ _ => rfl⟩
  · refine ⟨sub v (.insn n), e, fun w hw => ?_, fun w hw => by unfold sub; rw [if_neg hw]⟩
    unfold sub
    split
    · rename_i ev
      subst ev
      show some (τ.cell (k n)) = some (τ.cell (l v))
      rw [(h.loadI b hb x hx n hn).place, ha hw n hn]
    · exact hid w hw

/-- Reading an operand. -/
theorem needed_read {b x : Nat} {rest : List Nat} (hl : (f.insn x).op = .load ∨ (f.insn x).op = .store → (f.insn x).vals.head? ≠ some (.insn v))
    (hc : (f.insn x).op ≠ .phi) (hv : (f.insn x).op = .call ∨ (f.insn x).op = .loadraw → (f.insn x).vals = []) (h : .insn v ∈ operands (f.insn x)) :
    Loc.Needed f l (l v) b (x :: rest) := by
  refine .read ?_
  unfold operands at h
  rw [if_neg (by simpa using hc)] at h
  have hp : l v ∈ place l (.insn v) := by simp [place]
  unfold reads
  generalize hi : f.insn x = i at *
  split
  · rename_i e
    rw [hv (.inl e)] at h
    simp [raw, e] at h
  · rename_i e
    have hh := hl (.inr e)
    simp only [List.append_nil, raw, e, List.mem_append] at h
    rcases h with h | h
    · cases ev : i.vals with
      | nil => rw [ev] at h; cases h
      | cons w ws =>
        rw [ev] at h hh
        rcases List.mem_cons.1 h with h | h
        · exact absurd (by rw [h]; rfl) hh
        · exact List.mem_flatMap.2 ⟨_, h, hp⟩
    · simp at h
  · rename_i e
    rw [hv (.inr e)] at h
    simp [raw, e] at h
    rw [← h]; exact hp
  · rename_i e
    simp [raw, e] at h
    rcases h with h | h
    · exact List.mem_append_left _ (List.mem_flatMap.2 ⟨_, h, hp⟩)
    · rw [← h]; exact List.mem_append_right _ hp
  · rename_i e1 e2 e3 e4
    have h : .insn v ∈ i.vals := by
      have h3 : i.op ≠ .loadraw := fun e => e3 e
      have h4 : i.op ≠ .storeraw := fun e => e4 e
      simpa [raw, h3, h4] using h
    exact List.mem_flatMap.2 ⟨_, h, hp⟩

theorem Spilt.reads_old (h : Spilt f g R l k v a st H N M T) {b x : Nat} (hb : b ∈ R) (hx : x ∈ f.body b) {q : Nat} (hq : q ∈ Loc.reads l (f.insn x)) :
    ¬ NewAt f (k a) q := by
  obtain ⟨_, hop⟩ := h.isin b hb x hx
  have hpl : ∀ w ∈ (f.insn x).vals, q ∈ place l w → ¬ NewAt f (k a) q := by
    intro w hw hq
    cases w with
    | insn y =>
      simp only [place, List.mem_singleton] at hq
      rw [hq]
      exact h.old y (hop y (by unfold operands; simp [hw]))
    | const => cases hq
    | undef => cases hq
  have had : raw (f.insn x).op = true → q ∈ place l (f.insn x).addr → ¬ NewAt f (k a) q := by
    intro hr hq
    cases e : (f.insn x).addr with
    | insn y =>
      rw [e] at hq
      simp only [place, List.mem_singleton] at hq
      rw [hq]
      exact h.old y (hop y (by unfold operands; simp [hr, e]))
    | const => rw [e] at hq; cases hq
    | undef => rw [e] at hq; cases hq
  unfold Loc.reads at hq
  split at hq
  · rintro (e | ⟨n, _, e⟩)
    · have := argRegs_le hq; have := h.slot.1; omega
    · have := argRegs_le hq; have := virt_big n; omega
  · obtain ⟨w, hw, hq⟩ := List.mem_flatMap.1 hq
    exact hpl w (List.mem_of_mem_tail hw) hq
  · rename_i e; exact had (by simp [raw, e]) hq
  · rename_i e
    rcases List.mem_append.1 hq with hq | hq
    · obtain ⟨w, hw, hq⟩ := List.mem_flatMap.1 hq
      exact hpl w hw hq
    · exact had (by simp [raw, e]) hq
  · obtain ⟨w, hw, hq⟩ := List.mem_flatMap.1 hq
    exact hpl w hw hq

/-- Where an instruction writes to. -/
theorem writes_cases {l : Nat → Nat} {x : Nat} {i : Insn} {q : Nat} (h : q ∈ Loc.writes l x i) :
    q ≤ 5 ∨ q = l x ∨ (i.op = .store ∧ ∃ y, i.vals.head? = some (.insn y) ∧ q = l y) := by
  unfold Loc.writes at h
  split at h
  · left; simp at h; omega
  · rename_i e
    right; right
    refine ⟨e, ?_⟩
    obtain ⟨w, hw, hq⟩ := List.mem_flatMap.1 h
    cases w with
    | insn y =>
      simp only [place, List.mem_singleton] at hq
      exact ⟨y, by simpa using hw, hq⟩
    | const => cases hq
    | undef => cases hq
  all_goals first | (cases h; done) | skip
  split at h
  · cases h
  · right; left; simpa using h

theorem Spilt.not_slot (h : Spilt f g R l k v a st H N M T) {b x : Nat} (hb : b ∈ R) (hx : x ∈ f.body b) : k a ∉ Loc.writes l x (f.insn x) := by
  intro hq
  obtain ⟨hlx, hop⟩ := h.isin b hb x hx
  rcases writes_cases hq with e | e | ⟨_, y, e1, e⟩
  · have := h.slot.1; omega
  · exact h.ne hlx e.symm
  · refine h.ne (hop y ?_) e.symm
    unfold operands
    simp [List.mem_of_mem_head? e1]

theorem Spilt.only (h : Spilt f g R l k v a st H N M T) {b x : Nat} (hb : b ∈ R) (hx : x ∈ codeOf f b) (hxv : x ≠ v) : l v ∉ Loc.writes l x (f.insn x) := by
  intro hq
  have hxb : x ∈ f.body b := by rw [← phisOf_append f b]; exact List.mem_append_right _ hx
  obtain ⟨hlx, hop⟩ := h.isin b hb x hxb
  rcases writes_cases hq with e | e | ⟨h1, y, e1, e⟩
  · have := h.big; omega
  · exact hxv (h.inj x hlx e.symm)
  · have hy : Live f y := hop y (by unfold operands; simp [List.mem_of_mem_head? e1])
    have := h.inj y hy e.symm
    subst this
    exact h.access b hb x hx (.inr h1) e1

theorem spilt_feed (hw : W.wid a = 8) (h : Spilt f g R l k v a st H N M T) (hf : Flow f R) :
    Feed W f g R l k (NewAt f (k a)) (Before f l v (k a)) (Leave f l N T v (k a)) H N M T := by
  have inb : ∀ {b x : Nat}, x ∈ codeOf f b → x ∈ f.body b := fun hx => by rw [← phisOf_append f _]; exact List.mem_append_right _ hx
  have inp : ∀ {b x : Nat}, x ∈ phisOf f b → x ∈ f.body b := fun hx => by rw [← phisOf_append f _]; exact List.mem_append_left _ hx
  -- the operand `v` after the loads
  have hops : ∀ {b x : Nat} {rest : List Nat} {τ τ2 : Loc.St}, b ∈ R → x ∈ codeOf f b → (f.insn x).op ≠ .phi →
      (Loc.Needed f l (l v) b (x :: rest) → τ.cell (k a) = τ.cell (l v)) → Off (NewAt f (k a)) τ τ2 → (∀ n ∈ N x, τ2.cell (virt n) = τ.cell (k a)) →
      .insn v ∈ operands (f.insn x) → ∀ n ∈ N x, τ2.cell (virt n) = τ2.cell (l v) := by
    intro b x rest τ τ2 hb hx hp hP ho hl hv n hn
    rw [hl n hn, ho.cell _ (h.old v h.live)]
    exact hP (needed_read (h.access b hb x hx) hp (h.calls b hb x hx) hv)
  refine ⟨h.entry, h.succs, h.phis, h.code, fun b hb x hx => h.same x (h.isin b hb x (inp hx)).1,
    fun b hb x hx q hq => h.reads_old hb (inb hx) hq, ?_, ?_, ?_, ?_, ?_, ?_⟩
  · -- operands of phis
    intro b hb x hx o ho q hq
    obtain ⟨_, hop⟩ := h.isin b hb x (inp hx)
    cases e : o.2 with
    | insn y =>
      rw [e] at hq
      simp only [place, List.mem_singleton] at hq
      rw [hq]
      refine h.old y (hop y ?_)
      unfold operands
      rw [if_pos (by simpa using phisOf_phi hx)]
      simp only [List.mem_append, List.mem_map]
      exact .inl (.inr ⟨o, ho, e⟩)
    | const => rw [e] at hq; cases hq
    | undef => rw [e] at hq; cases hq
  · -- plain instructions
    intro b hb pre x rest ec hc τ τ1 tail hP he
    have hx : x ∈ codeOf f b := by rw [ec]; simp
    have hnp : (f.insn x).op ≠ .phi := by intro e; rw [e] at hc; cases hc
    obtain ⟨τ2, h1, h2, h3, h4, _⟩ := run_reloads (f := f) (b := b) (tail := x :: (M x ++ tail)) hw h.slot.2 (N x) τ (h.loadI b hb x hx)
    obtain ⟨s, e1, e2, e3⟩ := h.evals (τ := τ2) hb hx (hops hb hx hnp hP.1 h2 h4)
    obtain ⟨τ3, h5, h6⟩ := exec_off hc (fun q hq => h.reads_old hb (inb hx) hq) h2 he
    have hgo : (g.insn x).op = (f.insn x).op := by rw [e1]; rfl
    have he' : Loc.exec W k x (g.insn x) τ2 = some τ3 := by
      obtain ⟨hlx, hop⟩ := h.isin b hb x (inb hx)
      rw [e1, exec_alias (h.same x hlx) e2, h5]
      · intro hld y ey
        have hne : Val.insn y ≠ .insn v := fun e => h.access b hb x hx (.inl hld) (by rw [ey, ← e]; rfl)
        exact ⟨e3 _ hne, h.same y (hop y (by unfold operands; simp [ey]))⟩
      · intro hld w hw' ⟨y, ey⟩
        by_cases hwv : w = .insn v
        · exact ⟨v, hwv⟩
        · exact ⟨y, by rw [← ey, e3 w hwv]⟩
      · intro hst w hw'
        have hne : w ≠ .insn v := by
          rintro rfl
          exact h.access b hb x hx (.inr hst) hw'
        refine ⟨e3 w hne, ?_⟩
        rintro y rfl
        exact h.same y (hop y (by unfold operands; simp [List.mem_of_mem_head? hw']))
    have hstep : Loc.step W g k b (x :: (M x ++ tail)) τ2 = .goto b (M x ++ tail) τ3 := by
      rw [Loc.step_plain (by rw [hgo]; exact hc), he']
    have hlast : rest = [] → ∀ A z, codeOf f b = A ++ [z] → isJmp (f.insn z).op = false := by
      rintro rfl A z e
      rw [ec] at e
      have : z = x := by
        have := (List.append_inj' e rfl).2
        simpa using this.symm
      subst this
      rcases hj : isJmp (f.insn z).op with _ | _
      · rfl
      · exfalso
        generalize (f.insn z).op = o at hj hc
        cases o <;> simp [isJmp, Loc.control, Norm.Op.condJmp] at hj hc
    have hMx := h.aft b hb x hx
    by_cases hxv : x = v
    · rw [if_pos hxv] at hMx
      refine ⟨τ3.set (k a) (τ3.cell (l v)), Leads1.mid h1 hstep ?_, h6.trans (Off.set (.inl rfl)), ?_, hlast⟩
      · rw [hMx]; exact h.run_store τ3
      · intro _
        simp [Loc.St.set, h.ne h.live]
    · rw [if_neg hxv] at hMx
      refine ⟨τ3, Leads1.mid h1 hstep ?_, h6, ?_, hlast⟩
      · rw [hMx]; exact .rfl
      · intro hn
        rw [exec_keep hc h5 (h.not_slot hb (inb hx)), exec_keep hc h5 (h.only hb hx hxv), h3, h2.cell _ (h.old v h.live)]
        exact hP.1 (.skip (h.only hb hx hxv) hn)
  · -- jumps
    intro b hb pre x ec hc hnp τ tail hP
    have hx : x ∈ codeOf f b := by rw [ec]; simp
    obtain ⟨τ2, h1, h2, h3, h4, _⟩ := run_reloads (f := f) (b := b) (tail := x :: tail) hw h.slot.2 (N x) τ (h.loadI b hb x hx)
    obtain ⟨s, e1, e2, e3⟩ := h.evals (τ := τ2) hb hx (hops hb hx hnp hP.1 h2 h4)
    refine ⟨τ2, h1, h2, ⟨?_, ?_⟩, .mapOps e1 (fun w hw' => e2 w (by unfold operands; simp [hw']))⟩
    · intro hn
      rw [h3, h2.cell _ (h.old v h.live)]
      exact hP.1 (.skip (by rw [writes_control hc]; simp) hn)
    · intro n hn
      rw [h3]
      rcases hn with hn | ⟨A, z, e, hz, hn⟩
      · have hj : isJmp (f.insn x).op = true := by
          generalize (f.insn x).op = o at hnp hc
          cases o <;> simp_all [isJmp, Loc.control, Norm.Op.condJmp]
        rw [h.tail b hb pre x ec hj] at hn
        cases hn
      · rw [ec] at e
        have : z = x := by
          have := (List.append_inj' e rfl).2
          simpa using this.symm
        subst this
        exact h4 n hn
  · -- falling through
    intro b hb τ hP
    obtain ⟨τ2, h1, h2, h3, h4, _⟩ := run_reloads (f := f) (b := b) (tail := []) hw h.slot.2 (T b) τ (h.loadT b hb)
    rw [List.append_nil] at h1
    refine ⟨τ2, h1, h2, fun hn => ?_, fun n hn => ?_⟩
    · rw [h3, h2.cell _ (h.old v h.live)]
      exact hP.1 hn
    · rw [h3]
      rcases hn with hn | ⟨A, z, e, hz, _⟩
      · exact h4 n hn
      · rw [hP.2 rfl A z e] at hz; cases hz
  · -- values of phis
    intro b hb t ht τ hE x hx
    have htR := hf.succs b hb t ht
    obtain ⟨_, hop⟩ := h.isin t htR x (inp hx)
    have hmem : ∀ o ∈ (f.insn x).phi, ∀ y, o.2 = .insn y → Live f y := by
      intro o ho y e
      refine hop y ?_
      unfold operands
      rw [if_pos (by simpa using phisOf_phi hx)]
      simp only [List.mem_append, List.mem_map]
      exact .inl (.inr ⟨o, ho, e⟩)
    have hneed : ∀ o ∈ (f.insn x).phi, o.1 = b → o.2 = .insn v → τ.cell (k a) = τ.cell (l v) := by
      intro o ho e1 e2
      exact hE.1 (.phi ht hx (by rw [← e1, ← e2]; exact ho) rfl)
    have hall := h.phi t htR x hx
    unfold phiVal
    generalize (f.insn x).phi = ps at hall hmem hneed
    generalize (g.insn x).phi = qs at hall
    induction hall with
    | nil => rfl
    | @cons o o' os os' ho hos ih =>
      by_cases e : o.1 = b
      · rw [List.find?_cons_of_pos (by rw [ho.1]; simpa using e), List.find?_cons_of_pos (by simpa using e)]
        rcases ho.2 with e2 | ⟨e2, n, e3, hn⟩
        · show IR.eval (view k τ) o'.2 = IR.eval (view l τ) o.2
          rw [e2]
          cases e4 : o.2 with
          | insn y => exact congrArg some (congrArg τ.cell (h.same y (hmem o List.mem_cons_self y e4)))
          | const => rfl
          | undef => rfl
        · show IR.eval (view k τ) o'.2 = IR.eval (view l τ) o.2
          have hn := hn (by rw [e]; exact hb)
          rw [e] at hn
          have hkn : k n = virt n := by
            rcases hn with hn | ⟨A, z, ez, _, hn⟩
            · exact (h.loadT b hb n hn).place
            · exact (h.loadI b hb z (by rw [ez]; simp) n hn).place
          rw [e2, e3]
          show some (τ.cell (k n)) = some (τ.cell (l v))
          rw [hkn, hE.2 n hn, hneed o List.mem_cons_self e e2]
      · rw [List.find?_cons_of_neg (by rw [ho.1]; simpa using e), List.find?_cons_of_neg (by simpa using e)]
        exact ih (fun p hp => hmem p (List.mem_cons_of_mem _ hp)) (fun p hp => hneed p (List.mem_cons_of_mem _ hp))
  · -- at the start of a block
    intro b hb t ht τ e tail hE he
    have htR := hf.succs b hb t ht
    obtain ⟨τ2, h1, h2, h3⟩ := spilt_heads (W := W) h (b := t) (tail := tail) (H t) { τ with cell := e } (h.heads t htR)
    refine ⟨τ2, h1, h2, fun hn => h3 ?_, fun h4 A z h5 => by rw [h4] at h5; simp at h5⟩
    by_cases hv : v ∈ phisOf f t
    · exact .inr (h.stored t htR hv)
    · left
      have hne : ∀ x ∈ phisOf f t, l x ≠ l v := fun x hx e => hv (h.inj x (h.isin t htR x (inp hx)).1 e ▸ hx)
      show e (k a) = e (l v)
      rw [phiAssign_old he (k a) (fun x hx => h.ne (h.isin t htR x (inp hx)).1), phiAssign_old he (l v) hne]
      exact hE.1 (.edge ht (fun x hx e => hne x hx e.symm) hn)

theorem spilt_keeps (hw : W.wid a = 8) (h : Spilt f g R l k v a st H N M T) (hf : Flow f R) (hp : phisOf f f.entry = [])
    (hn : ¬ Loc.Needed f l (l v) f.entry (f.body f.entry)) (τ : Loc.St) : Loc.Keeps W f l g k τ := by
  refine feed_keeps hf (spilt_feed hw h hf) hp (fun tail => ?_)
  obtain ⟨τ2, h1, h2, h3⟩ := spilt_heads (W := W) h (b := f.entry) (tail := tail) (H f.entry) τ (h.heads _ hf.entry)
  refine ⟨τ2, h1, h2, fun h4 => ?_, fun h4 A z h5 => by rw [h4] at h5; simp at h5⟩
  rw [← phisOf_append f f.entry, hp] at hn
  exact absurd h4 hn

end Verif.Cg
