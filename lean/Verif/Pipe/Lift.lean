import Verif.Pipe.Code
import Verif.Lift.Zero
/-!
# The lifted function after `post`
-/
namespace Verif.Pipe
open Verif Verif.IR Verif.GenBB
open Verif.Bpf (Slot Closed decode)
open Verif.Flatten (graphOf lastOf)
open Verif.Lift (plainOp Lifted Goes toFn Gh LSt predsOf succsOf succs_get preds_get)
open Verif.Lower (void)
open Verif.Edit (raw operands)

/-! ## Successor arrays -/

theorem genSucc_each {g : Layout.Graph} (all : List Nat) : all.Nodup → (∀ b ∈ all, ∃ y, Layout.fixSucc (g b) = .ok y) →
    ∃ g', Layout.genSucc g all = .ok g' ∧ (∀ b ∈ all, Layout.fixSucc (g b) = .ok (g' b)) ∧ ∀ b, b ∉ all → g' b = g b := by
  induction all generalizing g with
  | nil => intro _ _; exact ⟨g, rfl, by simp, by simp⟩
  | cons b bs ih =>
    intro hn h
    obtain ⟨y, hy⟩ := h b (by simp)
    rw [List.nodup_cons] at hn
    have hne : ∀ c ∈ bs, c ≠ b := fun c hc e => hn.1 (e ▸ hc)
    obtain ⟨g', h1, h2, h3⟩ := ih (g := fun c => if c = b then y else g c) hn.2 fun c hc => by
      rw [if_neg (hne c hc)]; exact h c (by simp [hc])
    refine ⟨g', ?_, fun c hc => ?_, fun c hc => ?_⟩
    · simp only [Layout.genSucc]
      rw [hy, Out.ok_bind, h1]
    · rcases List.mem_cons.1 hc with rfl | hc
      · rw [h3 c hn.1, if_pos rfl, hy]
      · have := h2 c hc
        rw [if_neg (hne c hc)] at this
        exact this
    · simp only [List.mem_cons, not_or] at hc
      rw [h3 c hc.2, if_neg hc.1]

variable {P : List Slot} {C : List Blk} {g : Gh} {s : LSt}

/-- What `gen_bb_succ` does to one block of a lifted function. -/
structure Fixed (C : List Blk) (f : Fn) (b : Nat) (k : Blk) (y : Layout.Blk) : Prop where
  fix : Layout.fixSucc (graphOf f b) = .ok y
  preds : y.preds = f.preds b
  last : y.last = lastOf f b
  mem : ∀ c, c ∈ y.succs ↔ c ∈ f.succs b
  nodup : y.succs.Nodup
  one : ∀ t, y.succs = [t] ↔ f.succs b = [t]
  two : y.succs.length ≤ 2
  ja : ∀ t, y.jaTo = some t → y.succs = [t]
  route : ∀ f1 : Fn, f1.body = f.body → f1.insn = f.insn → f1.succs b = y.succs → Route f1 b
  falls : ∀ c, (y.succs = [c] ∧ y.jaTo = none ∨ ∃ d, y.succs = [c, d]) → ∃ kc : Blk, C[c]? = some kc ∧ kc.start = k.stop

theorem last_of {f : Fn} {b x : Nat} {pre : List Nat} (e : f.body b = pre ++ [x]) :
    lastOf f b = if (f.insn x).op = .ja then .ja (f.insn x).bb1 else if (f.insn x).op.condJmp then .cond (f.insn x).bb1 (f.insn x).bb2 else .other := by
  unfold lastOf
  rw [e, List.getLast?_append]
  rfl

theorem last_fall {f : Fn} {b : Nat} (h : ∀ x ∈ f.body b, ends (f.insn x).op = false) : lastOf f b = .none ∨ lastOf f b = .other := by
  unfold lastOf
  cases hl : (f.body b).getLast? with
  | none => exact .inl rfl
  | some x =>
    have hx := h x (List.mem_of_getLast? hl)
    dsimp only
    rw [if_neg (by intro e; rw [e] at hx; cases hx), if_neg (by intro e; rw [(cond_ends e).1] at hx; cases hx)]
    exact .inr rfl

theorem fixed_of (h : Lifted P C g s) (hc : Closed P) {b : Nat} {k : Blk} (hk : C[b]? = some k) : ∃ y, Fixed C (toFn C s) b k y := by
  have hsu : (toFn C s).succs b = succsOf C b := rfl
  cases h.goes hc hk with
  | fall c kc h1 h2 h3 h4 =>
    have hl := last_fall h1
    refine ⟨graphOf (toFn C s) b, ?_, rfl, rfl, fun _ => Iff.rfl, ?_, fun _ => Iff.rfl, ?_, ?_, ?_, ?_⟩
    · unfold Layout.fixSucc graphOf
      dsimp only
      rcases hl with e | e <;> rw [e]
    · show (succsOf C b).Nodup; rw [h2]; simp
    · show (succsOf C b).length ≤ 2; rw [h2]; simp
    · intro t ht
      unfold Layout.Blk.jaTo graphOf at ht
      dsimp only at ht
      rcases hl with e | e <;> rw [e] at ht <;> cases ht
    · intro f1 e1 e2 e3
      refine .fall c (by rw [e1, e2]; exact h1) (by rw [e3]; exact h2)
    · intro d hd
      have hs : (graphOf (toFn C s) b).succs = [c] := h2
      rw [hs] at hd
      rcases hd with ⟨e, _⟩ | ⟨_, e⟩
      · cases e; exact ⟨kc, h3, h4⟩
      · cases e
  | ja x pre h1 h2 h3 =>
    have hl := last_of h1
    rw [if_pos h2] at hl
    refine ⟨graphOf (toFn C s) b, ?_, rfl, rfl, fun _ => Iff.rfl, ?_, fun _ => Iff.rfl, ?_, ?_, ?_, ?_⟩
    · unfold Layout.fixSucc graphOf
      dsimp only
      rw [hl, hsu, h3]
    · show (succsOf C b).Nodup; rw [h3]; simp
    · show (succsOf C b).length ≤ 2; rw [h3]; simp
    · intro t ht
      unfold Layout.Blk.jaTo graphOf at ht
      dsimp only at ht
      rw [hl] at ht
      cases ht
      exact h3
    · intro f1 e1 e2 e3
      refine .ja x pre (by rw [e1]; exact h1) (by rw [e2]; exact h2) (by rw [e3, e2]; exact h3)
    · intro d hd
      have hs : (graphOf (toFn C s) b).succs = [((toFn C s).insn x).bb1] := h3
      have hj : (graphOf (toFn C s) b).jaTo = some ((toFn C s).insn x).bb1 := by unfold Layout.Blk.jaTo graphOf; dsimp only; rw [hl]
      rw [hs, hj] at hd
      rcases hd with ⟨_, e⟩ | ⟨_, e⟩ <;> cases e
  | cond x pre k1 h1 h2 h3 h4 h5 h6 =>
    have hl := last_of h1
    rw [if_neg (cond_ends h2).2.1, if_pos h2] at hl
    refine ⟨{ graphOf (toFn C s) b with succs := [((toFn C s).insn x).bb1, ((toFn C s).insn x).bb2] }, ?_, rfl, rfl, ?_, ?_, ?_, ?_, ?_, ?_, ?_⟩
    · unfold Layout.fixSucc graphOf
      dsimp only
      rw [hl, hsu]
      rcases h4 with e | e <;> rw [e]
    · intro c
      show c ∈ [_, _] ↔ c ∈ succsOf C b
      rcases h4 with e | e <;> rw [e] <;> simp [or_comm]
    · show [_, _].Nodup
      simp [h3]
    · intro t
      rw [hsu]
      rcases h4 with e | e <;> rw [e] <;> simp
    · show [_, _].length ≤ 2
      simp
    · intro t ht
      unfold Layout.Blk.jaTo graphOf at ht
      dsimp only at ht
      rw [hl] at ht
      cases ht
    · intro f1 e1 e2 e3
      refine .cond x pre (by rw [e1]; exact h1) (by rw [e2]; exact h2) (by rw [e3, e2])
    · intro d hd
      rcases hd with ⟨e, _⟩ | ⟨_, e⟩
      · cases e
      · cases e; exact ⟨k1, h5, h6⟩
  | ret x pre h1 h2 h3 =>
    have hl := last_of h1
    rw [if_neg (by rw [h2]; simp), if_neg (by rw [h2]; simp [Norm.Op.condJmp])] at hl
    refine ⟨graphOf (toFn C s) b, ?_, rfl, rfl, fun _ => Iff.rfl, ?_, fun _ => Iff.rfl, ?_, ?_, ?_, ?_⟩
    · unfold Layout.fixSucc graphOf
      dsimp only
      rw [hl]
    · show (succsOf C b).Nodup; rw [h3]; simp
    · show (succsOf C b).length ≤ 2; rw [h3]; simp
    · intro t ht
      unfold Layout.Blk.jaTo graphOf at ht
      dsimp only at ht
      rw [hl] at ht
      cases ht
    · intro f1 e1 e2 e3
      refine .ret x pre (by rw [e1]; exact h1) (by rw [e2]; exact h2) (by rw [e3]; exact h3)
    · intro d hd
      have hs : (graphOf (toFn C s) b).succs = [] := h3
      rw [hs] at hd
      rcases hd with ⟨e, _⟩ | ⟨_, e⟩ <;> cases e

/-! ## Functions that differ in the order of successors -/

/-- The same function up to the order of the successors. -/
structure SameFlow (f f1 : Fn) : Prop where
  eq : ∃ su, f1 = { f with succs := su }
  one : ∀ b t, f1.succs b = [t] ↔ f.succs b = [t]
  mem : ∀ b c, c ∈ f1.succs b ↔ c ∈ f.succs b

section
variable {f f1 : Fn} (h : SameFlow f f1)
include h

theorem SameFlow.edge {a b : Nat} : Edge f1 a b ↔ Edge f a b := by
  obtain ⟨su, rfl⟩ := h.eq
  constructor
  · intro e
    cases e with
    | ja x h1 h2 h3 => exact .ja x h1 h2 h3
    | cond x h1 h2 h3 => exact .cond x h1 h2 h3
    | fall h1 => exact .fall ((h.one a b).1 h1)
  · intro e
    cases e with
    | ja x h1 h2 h3 => exact .ja x h1 h2 h3
    | cond x h1 h2 h3 => exact .cond x h1 h2 h3
    | fall h1 => exact .fall ((h.one a b).2 h1)

theorem SameFlow.entry : f1.entry = f.entry := by obtain ⟨su, rfl⟩ := h.eq; rfl

theorem SameFlow.walk {l : List Nat} : Walk f1 l ↔ Walk f l := by
  have he := h.entry
  constructor
  · intro w
    induction w with
    | entry => rw [he]; exact .entry
    | step a b t _ e ih => exact .step a b t ih (h.edge.1 e)
  · intro w
    induction w with
    | entry => rw [← he]; exact .entry
    | step a b t _ e ih => exact .step a b t ih (h.edge.2 e)

theorem SameFlow.dom {a b : Nat} : Dom f1 a b ↔ Dom f a b := by
  unfold Dom
  constructor
  · intro d t w; exact d t (h.walk.2 w)
  · intro d t w; exact d t (h.walk.1 w)

theorem SameFlow.ssa (k : Ssa f) : Ssa f1 := by
  have hw := fun l => h.walk (l := l)
  have hd := fun a b => h.dom (a := a) (b := b)
  have he := fun a b => h.edge (a := a) (b := b)
  obtain ⟨su, rfl⟩ := h.eq
  refine ⟨?_, ?_, ?_, k.entry, k.vars⟩
  · intro b z hz ho y hy hr; exact (hd _ _).2 (k.uses b z hz ho y hy hr)
  · intro b z hz ho p y hp hy; exact (hd _ _).2 (k.phiUses b z hz ho p y hp hy)
  · intro b z hz ho p t w e; exact k.phiAll b z hz ho p t ((hw _).1 w) ((he _ _).1 e)

theorem SameFlow.ordered (k : Ordered f) : Ordered f1 := by
  intro b ⟨t, w⟩
  have := k b ⟨t, h.walk.1 w⟩
  obtain ⟨su, rfl⟩ := h.eq
  exact this

theorem SameFlow.ok (k : Ok f) : Ok f1 := by
  obtain ⟨su, rfl⟩ := h.eq
  exact ⟨⟨k.tidy.lt, k.tidy.closed, k.tidy.parent, k.tidy.nodup, k.tidy.fixed⟩, k.users, k.phis, k.only⟩

theorem SameFlow.last (k : EndsLast f) : EndsLast f1 := by
  obtain ⟨su, rfl⟩ := h.eq
  exact k

theorem SameFlow.step (W : World) (b : Nat) (rest : List Nat) (σ : St) : IR.step W f1 b rest σ = IR.step W f b rest σ := by
  have h1 := h.one b
  obtain ⟨su, rfl⟩ := h.eq
  have he : ∀ c, enter { f with succs := su } b c σ = enter f b c σ := by
    intro c
    have : ∀ xs, phiAssign { f with succs := su } b σ xs = phiAssign f b σ xs := by
      intro xs
      induction xs with
      | nil => rfl
      | cons x xs ih => simp only [phiAssign, ih]
    unfold enter
    rw [this]
    rfl
  cases rest with
  | cons x rest => simp only [IR.step, he]
  | nil =>
    simp only [IR.step, he]
    show (match su b with | [t] => enter f b t σ | _ => .stuck) = (match f.succs b with | [t] => enter f b t σ | _ => .stuck)
    have h1 : ∀ t, su b = [t] ↔ f.succs b = [t] := h1
    split
    · next t e => rw [(h1 t).1 e]
    · next hn =>
      split
      · next t e => exact absurd ((h1 t).2 e) (hn t)
      · rfl

theorem SameFlow.run (W : World) (n : Nat) (σ : St) : runFn W f1 n σ = runFn W f n σ := by
  have : ∀ n b rest σ, IR.run W f1 n b rest σ = IR.run W f n b rest σ := by
    intro n
    induction n with
    | zero => intro _ _ _; rfl
    | succ n ih =>
      intro b rest σ
      simp only [IR.run]
      rw [h.step]
      split <;> simp_all
  unfold runFn
  rw [this]
  obtain ⟨su, rfl⟩ := h.eq
  rfl

end

/-! ## The lifted function -/

theorem nice_of (h : Lifted P C g s) {v : Val} (hv : Lift.NiceV s.insn v) (hk : ∀ y, v = .insn y → Lift.Known s y) : Nice (toFn C s) v := by
  rcases hv with hv | ⟨y, rfl, hy⟩
  · obtain ⟨c, rfl⟩ := hv; exact .inl ⟨_, c, rfl⟩
  · refine .inr ⟨y, rfl, ?_⟩
    rcases (h.known y).1 (hk y rfl) with e | e | e
    · exact .inl e
    · exact .inr (.inl e)
    · refine .inr (.inr ⟨e, hy.resolve_left ?_⟩)
      have := h.body6 e
      omega

theorem nice_const {f : Fn} {v : Val} (h : Nice f v) : ConstOk v := by
  rcases h with ⟨k, c, rfl⟩ | ⟨y, rfl, _⟩
  · cases k <;> simp [ConstOk]
  · simp [ConstOk]

theorem known_of (h : Lifted P C g s) {x y : Nat} (hr : .insn y ∈ operands (s.insn x)) : Lift.Known s y :=
  h.books.refs x y (by rw [Edit.refs_eq]; exact List.count_pos_iff.2 hr)

theorem insns_slot (h : Lifted P C g s) {b : Nat} {q : PreInsn} (hq : q ∈ Lift.insnsOf C b) : q.slot ∈ P := by
  unfold Lift.insnsOf at hq
  split at hq
  · next k hk =>
    have := h.graph.chain b k hk
    generalize k.start = p at this
    generalize k.insns = qs at this hq
    induction this with
    | nil => simp at hq
    | one h1 h2 h3 h4 h5 ih =>
      rcases List.mem_cons.1 hq with rfl | hq
      · exact List.mem_of_getElem? h2
      · exact ih hq
    | wide h1 h2 h3 h4 h5 ih =>
      rcases List.mem_cons.1 hq with rfl | hq
      · exact List.mem_of_getElem? h2
      · exact ih hq
  · simp at hq

theorem fact_of (h : Lifted P C g s) (hu : ∀ sl ∈ P, ∀ i, decode sl = some i → Usual i) {b x : Nat} (hx : x ∈ s.body b) : Fact (toFn C s) (s.insn x) := by
  have hr := (h.mem hx).1
  have hvals : (∀ v ∈ operands (s.insn x), Lift.NiceV s.insn v) → ∀ v ∈ operands (s.insn x), Nice (toFn C s) v := fun hn v hv =>
    nice_of h (hn v hv) fun y e => known_of h (x := x) (by rw [← e]; exact hv)
  have hx' := hx
  rw [h.fin.gi.inv.body] at hx'
  rcases List.mem_append.1 hx' with hp | hc
  · -- a phi
    have ho := (h.fin.gi.inv.phiR b x hp).2
    have he := h.books.phi x ho
    obtain ⟨c1, c2⟩ := h.fin.complete hr hp
    have hv := hvals (fun v hv => by
      unfold operands at hv
      rw [he] at hv
      simp only [Lift.phi0, List.nil_append, if_pos, raw] at hv
      simp at hv
      obtain ⟨p, hp'⟩ := hv
      have hq := (c2 _ hp').2
      have : p ∈ predsOf C b := by rw [← c1]; exact List.mem_map_of_mem (f := Prod.fst) hp'
      exact h.nice_look (h.fin.live b hr p this) _ _ hq)
    have hvs : (s.insn x).vals = [] := by rw [he]; rfl
    refine ⟨.inl ho, ?_, by rw [ho]; simp, fun _ => by rw [he]; rfl, hv, ?_, by rw [c1]; exact (h.graphF.preds b (List.mem_range.2 (hr.lt h.graph h.pos))).1, by rw [ho]; simp⟩
    · refine ⟨?_, ?_, ?_, ?_, ?_, ?_, ?_, ?_, ?_, ?_⟩ <;> try simp only [ho]
      · intro n hn; cases hn; rw [hvs]; rfl
      · simp
      · simp
      · simp
      · simp
      · simp [Norm.Op.binAlu, Norm.Op.condJmp]
      · simp
      · rw [hvs]; simp
      · intro _ o hm
        refine nice_const (hv o.2 ?_)
        unfold operands
        rw [if_pos ho]
        exact List.mem_append_left _ (List.mem_append_right _ (List.mem_map_of_mem hm))
      · simp
    · intro o hm
      have : o.1 ∈ predsOf C b := by rw [← c1]; exact List.mem_map_of_mem hm
      exact List.mem_range.2 (((h.fin.live b hr _ this)).lt h.graph h.pos)
  · obtain ⟨q, hq, i, j, a, os, d, av, vs, h1, ht, h3, h4, h5, h6, h7⟩ := h.made hr x hc
    have hus := hu q.slot (insns_slot h hq) i h1
    have hop : (s.insn x).op = j.op := by rw [h3]
    have hne : (s.insn x).op ≠ .phi := by rw [hop]; exact ht.op
    have hva : (s.insn x).vals = vs := by rw [h3]
    have had : (s.insn x).addr = av := by rw [h3]
    have hra : raw (s.insn x).op = true → a ≠ none := by
      intro hraw e
      rw [hop, ← ht.raw, e] at hraw
      cases hraw
    have hv := hvals (fun v hv => by
      unfold operands at hv
      rw [if_neg hne, List.append_nil, hva] at hv
      rcases List.mem_append.1 hv with hv | hv
      · exact h5 v hv
      · split at hv
        · rename_i hraw
          rw [List.mem_singleton, had] at hv
          rw [hv]
          exact h7 (hra hraw)
        · cases hv)
    refine ⟨?_, ?_, ?_, ?_, hv, ?_, by rw [show (s.insn x).phi = [] by rw [h3]; exact ht.phi]; exact List.nodup_nil, fun ho => by
      obtain ⟨i1, i2⟩ := ht.imm (hop ▸ ho)
      exact ⟨by rw [h3]; exact i1, by rw [hva]; exact List.length_eq_zero_iff.1 (by rw [h4, i2]; rfl)⟩⟩
    · rcases h.ops hx with ⟨_, e⟩ | ⟨_, e⟩ | ⟨_, _, _, _, _, _, _, _, _, _, e⟩
      · exact .inl e
      · exact .inr (.inl e)
      · exact .inr (.inr (e.ends.2))
    · have hnot : (s.insn x).op ≠ .load ∧ (s.insn x).op ≠ .store ∧ (s.insn x).op ≠ .alloc ∧ (s.insn x).op ≠ .getelemptr := by
        rcases h.ops hx with ⟨_, e⟩ | ⟨_, e⟩ | ⟨_, _, _, _, _, _, _, _, _, _, e⟩
        · rw [e]; simp
        · generalize (s.insn x).op = o at e
          cases o <;> first | exact Bool.noConfusion e | simp
        · have := e.ends.1
          generalize (s.insn x).op = o at this
          cases o <;> first | exact Bool.noConfusion this | simp
      refine ⟨?_, ?_, ?_, ?_, ?_, ?_, ?_, ?_, ?_, ?_⟩
      · intro n hn; rw [hop] at hn; rw [hva, h4]; exact ht.count n hn
      · intro ho
        rw [hop] at ho
        obtain ⟨be, dd, rfl⟩ := ht.swap ho
        have : (s.insn x).aux = j.aux := by rw [h3]
        rw [this]; exact hus
      · intro ho; exact absurd ho (by rintro (e | e); exact hnot.2.1 e; exact hnot.1 e)
      · intro ho; exact absurd ho hnot.2.2.2
      · intro ho
        rw [hop] at ho
        have := (ht.call ho).1
        have e : (s.insn x).aux = j.aux := by rw [h3]
        rw [e]
        rw [this] at hus
        exact hus
      · intro ho
        rw [hop] at ho
        have : (s.insn x).aluOp = j.aluOp := by rw [h3]
        rw [this]; exact ht.width ho
      · intro ho
        have : (s.insn x).vrType = j.vrType := by rw [h3]
        rw [this]
        rw [hop] at ho
        refine ht.size (ho.resolve_left ?_)
        rw [← hop]; exact hnot.2.2.1
      · intro v hm
        refine nice_const (hv v ?_)
        unfold operands
        exact List.mem_append_left _ (List.mem_append_left _ hm)
      · intro ho; exact absurd ho hne
      · intro ho
        have hraw : raw (s.insn x).op = true := by
          rcases ho with e | e <;> rw [e] <;> rfl
        refine nice_const (hv _ ?_)
        unfold operands
        rw [if_pos hraw]
        simp
    · intro ho h6'
      rw [hop] at ho
      have e : (s.insn x).aux = j.aux := by rw [h3]
      rw [e] at h6' ⊢
      obtain ⟨e1, e2⟩ := (ht.call ho).2 h6'
      rw [hva, h4, e1]
      exact ⟨rfl, e2⟩
    · intro hraw
      rw [had]
      refine h6 ?_
      rw [hop, ← ht.raw] at hraw
      cases a with
      | none => rfl
      | some r => cases hraw
    · intro o hm
      have : (s.insn x).phi = [] := by rw [h3]; exact ht.phi
      rw [this] at hm
      simp at hm

/-- The helpers that are called are those of the program. -/
theorem called_of (h : Lifted P C g s) {b x : Nat} (hx : x ∈ s.body b) (ho : (s.insn x).op = .call) : ∃ sl ∈ P, decode sl = some (.call (s.insn x).aux) := by
  have hr := (h.mem hx).1
  have hx' := hx
  rw [h.fin.gi.inv.body] at hx'
  rcases List.mem_append.1 hx' with hp | hc
  · have := (h.fin.gi.inv.phiR b x hp).2
    rw [ho] at this; cases this
  · obtain ⟨q, hq, i, j, a, os, d, av, vs, h1, ht, h3, h4, h5, h6, h7⟩ := h.made hr x hc
    have hop : (s.insn x).op = j.op := by rw [h3]
    have hau : (s.insn x).aux = j.aux := by rw [h3]
    refine ⟨q.slot, insns_slot h hq, ?_⟩
    rw [hop] at ho
    rw [hau, h1, (ht.call ho).1]

theorem Fact.congr {f f1 : Fn} {i : Insn} (h : SameFlow f f1) (k : Fact f i) : Fact f1 i := by
  obtain ⟨su, rfl⟩ := h.eq
  exact ⟨k.op, ⟨k.chk.arity, k.chk.swap, k.chk.var, k.chk.elem, k.chk.fid, k.chk.width, k.chk.size, k.chk.consts, k.chk.phiConsts, k.chk.addrConst⟩, k.call, k.addr, k.vals, k.labels, k.once, k.imm⟩

/-- `gen_bb_succ` succeeds on a lifted function and gives a function the passes can work on. -/
theorem lifted_code (h : Lifted P C g s) (hc : Closed P) (hu : ∀ sl ∈ P, ∀ i, decode sl = some i → Usual i) :
    ∃ g', Layout.genSucc (graphOf (toFn C s)) (toFn C s).allBbs = .ok g' ∧ SameFlow (toFn C s) (withSuccs (toFn C s) g') ∧ Code (withSuccs (toFn C s) g') := by
  have hblk : ∀ b, b < C.length → ∃ k y, C[b]? = some k ∧ Fixed C (toFn C s) b k y := fun b hb => by
    obtain ⟨y, hy⟩ := fixed_of h hc (List.getElem?_eq_getElem hb)
    exact ⟨_, y, List.getElem?_eq_getElem hb, hy⟩
  have hmem : ∀ b, b ∈ (toFn C s).allBbs ↔ b < C.length := fun b => List.mem_range
  obtain ⟨g', h1, h2, h3⟩ := genSucc_each (g := graphOf (toFn C s)) (toFn C s).allBbs List.nodup_range fun b hb => by
    obtain ⟨k, y, _, hy⟩ := hblk b ((hmem b).1 hb)
    exact ⟨y, hy.fix⟩
  have hfix : ∀ b, b < C.length → ∃ k, C[b]? = some k ∧ Fixed C (toFn C s) b k (g' b) := fun b hb => by
    obtain ⟨k, y, hk, hy⟩ := hblk b hb
    have := h2 b ((hmem b).2 hb)
    rw [hy.fix] at this
    cases this
    exact ⟨k, hk, hy⟩
  have hout : ∀ b, ¬ b < C.length → g' b = graphOf (toFn C s) b := fun b hb => h3 b fun hm => hb ((hmem b).1 hm)
  have hnone : ∀ b, ¬ b < C.length → succsOf C b = [] ∧ predsOf C b = [] := fun b hb => by
    have : C[b]? = none := List.getElem?_eq_none (Nat.le_of_not_lt hb)
    unfold succsOf predsOf
    rw [this]
    exact ⟨rfl, rfl⟩
  have hsf : SameFlow (toFn C s) (withSuccs (toFn C s) g') := by
    refine ⟨⟨_, rfl⟩, fun b t => ?_, fun b c => ?_⟩
    · by_cases hb : b < C.length
      · obtain ⟨k, _, hy⟩ := hfix b hb; exact hy.one t
      · show (g' b).succs = [t] ↔ _
        rw [hout b hb]; rfl
    · by_cases hb : b < C.length
      · obtain ⟨k, _, hy⟩ := hfix b hb; exact hy.mem c
      · show c ∈ (g' b).succs ↔ _
        rw [hout b hb]; rfl
  have hgr := h.graphF
  have hgr' : IR.Graph (withSuccs (toFn C s) g') := by
    refine ⟨fun a ha b hb => ?_, fun a ha => ?_, hgr.preds⟩
    · rw [hsf.mem]; exact hgr.sym a ha b hb
    · obtain ⟨k, _, hy⟩ := hfix a ((hmem a).1 ha)
      exact ⟨hy.nodup, fun b hb => (hgr.succs a ha).2 b ((hy.mem b).1 hb)⟩
  have hreach : ∀ b, b < C.length → Conn (withSuccs (toFn C s) g') b := by
    intro b hb
    obtain ⟨n, hn⟩ := h.reachAll hc hb
    clear hb
    induction hn with
    | zero => exact .entry
    | succ _ hm ih => exact .step ih ((hsf.mem _ _).2 hm)
  have hlast : ∀ b, b < C.length → (g' b).last = lastOf (toFn C s) b := fun b hb => by obtain ⟨k, _, hy⟩ := hfix b hb; exact hy.last
  have hgraph : ∀ b, b < C.length → graphOf (withSuccs (toFn C s) g') b = g' b := by
    intro b hb
    obtain ⟨k, _, hy⟩ := hfix b hb
    show (⟨(g' b).succs, (toFn C s).preds b, lastOf (toFn C s) b⟩ : Layout.Blk) = g' b
    rw [← hy.preds, ← hy.last]
  have hfalls : ∀ b c, b < C.length → Layout.Falls (graphOf (withSuccs (toFn C s) g')) b c → ∃ k kc : Blk, C[b]? = some k ∧ C[c]? = some kc ∧ kc.start = k.stop := by
    intro b c hb hf
    obtain ⟨k, hk, hy⟩ := hfix b hb
    unfold Layout.Falls at hf
    rw [hgraph b hb] at hf
    obtain ⟨kc, h4, h5⟩ := hy.falls c hf
    exact ⟨k, kc, hk, h4, h5⟩
  refine ⟨g', h1, hsf, hsf.ok h.ok, hsf.ssa h.ssa, hsf.ordered h.ordered, hsf.last h.endsLast, hgr', ?_, (hmem 0).2 h.pos, h.fin.entry, fun b hb => hreach b ((hmem b).1 hb),
    ⟨C.length, ⟨h.pos, ?_, ?_, ?_, ?_, ?_, ?_, ?_, ?_, ?_, ?_⟩, fun b hb => (hmem b).2 hb⟩, ?_, ?_, ?_, by show [1, 2, 3, 4, 5].length ≤ 5; decide, by show [1, 2, 3, 4, 5].Nodup; decide, by show 0 ∉ [1, 2, 3, 4, 5]; decide⟩
  · intro b hb
    obtain ⟨k, _, hy⟩ := hfix b ((hmem b).1 hb)
    exact hy.route _ rfl rfl rfl
  · intro b hb c hm
    exact (hmem c).1 ((hgr'.succs b ((hmem b).2 hb)).2 c hm)
  · intro b hb c hm
    exact (hmem c).1 ((hgr'.preds b ((hmem b).2 hb)).2 c hm)
  · intro b hb
    obtain ⟨k, _, hy⟩ := hfix b hb
    exact hy.two
  · intro b t ht
    by_cases hb : b < C.length
    · obtain ⟨k, _, hy⟩ := hfix b hb
      rw [hgraph b hb] at ht ⊢
      exact hy.ja t ht
    · exfalso
      have he : (toFn C s).body b = [] := h.ok.only b fun hm => hb ((hmem b).1 hm)
      have : lastOf (withSuccs (toFn C s) g') b = .none := by
        unfold lastOf
        have : (withSuccs (toFn C s) g').body b = [] := he
        rw [this]
        rfl
      unfold Layout.Blk.jaTo graphOf at ht
      dsimp only at ht
      rw [this] at ht
      cases ht
  · intro b c hb hm
    exact ((hgr'.sym b ((hmem b).2 hb) c ((hgr'.succs b ((hmem b).2 hb)).2 c hm)).1 hm)
  · intro b c hb hm
    have hb' := (hgr'.preds c ((hmem c).2 hb)).2 b hm
    exact ((hgr'.sym b hb' c ((hmem c).2 hb)).2 hm)
  · intro b hb
    exact (hgr'.preds b ((hmem b).2 hb)).1
  · intro b b' c hb hb' hf hf'
    obtain ⟨k, kc, e1, e2, e3⟩ := hfalls b c hb hf
    obtain ⟨k', kc', e1', e2', e3'⟩ := hfalls b' c hb' hf'
    rw [e2] at e2'
    cases e2'
    have n1 := h.nonempty hc e1
    have n2 := h.nonempty hc e1'
    rcases Nat.lt_trichotomy b b' with hlt | he | hlt
    · have := h.graph.pw b b' k k' e1 e1' hlt; omega
    · exact he
    · have := h.graph.pw b' b k' k e1' e1 hlt; omega
  · refine ⟨fun b => match C[b]? with | some k => k.start | none => 0, fun b c hb hf => ?_⟩
    obtain ⟨k, kc, e1, e2, e3⟩ := hfalls b c hb hf
    have n1 := h.nonempty hc e1
    dsimp only
    rw [e1, e2]
    dsimp only
    omega
  · intro b hb hf
    obtain ⟨k, kc, e1, e2, e3⟩ := hfalls b 0 hb hf
    have n1 := h.nonempty hc e1
    have := h.graph.zero kc e2
    omega
  · rintro x ⟨b, _, hx⟩
    exact (fact_of h hu hx).congr hsf
  · intro y hy
    have h6 : y < 6 := by
      rcases hy with e | e
      · rw [e]; show 0 < 6; omega
      · have e : y ∈ [1, 2, 3, 4, 5] := e
        simp at e
        omega
    have e : (withSuccs (toFn C s) g').insn y = Lift.init.insn y := h.books.low y h6
    rw [e]
    refine ⟨?_, ?_⟩
    · show Edit.operands (if y = 0 then _ else _) = []
      split <;> rfl
    · show (if y = 0 then _ else _ : Insn).op = _ ∨ (if y = 0 then _ else _ : Insn).op = _
      split
      · exact .inl rfl
      · exact .inr rfl
  · have e : (withSuccs (toFn C s) g').insn 0 = Lift.init.insn 0 := h.books.low 0 (by omega)
    show ((withSuccs (toFn C s) g').insn 0).op = .reg
    rw [e]
    rfl

end Verif.Pipe
