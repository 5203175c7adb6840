import Verif.Pipe.Code
import Verif.Phi.Props
import Verif.Dead.Props
/-!
# The passes that remove instructions
-/
namespace Verif.Pipe
open Verif Verif.IR
open Verif.Flatten (graphOf lastOf)
open Verif.Lift (plainOp)
open Verif.Lower (void)
open Verif.Edit (raw operands mapOps)

/-- `g` is `f` without some instructions that do not end blocks, with operands replaced by operands of phis. -/
structure Shrunk (f g : Fn) : Prop where
  ok : Ok g
  allBbs : g.allBbs = f.allBbs
  entry : g.entry = f.entry
  args : g.args = f.args
  sp : g.sp = f.sp
  succs : g.succs = f.succs
  preds : g.preds = f.preds
  body : ∃ D : Nat → Bool, (∀ b, g.body b = (f.body b).filter (fun x => !D x)) ∧ ∀ x, D x = true → ends (f.insn x).op = false
  insn : Phi.Resub f g

section
variable {f g : Fn} (h : Shrunk f g) (hf : Code f)
include h

theorem Shrunk.sub {b x : Nat} (hx : x ∈ g.body b) : x ∈ f.body b := by
  obtain ⟨D, h1, _⟩ := h.body
  rw [h1, List.mem_filter] at hx
  exact hx.1

theorem Shrunk.inBody {x : Nat} (hx : InBody g x) : InBody f x := by
  obtain ⟨b, hb, hx⟩ := hx
  exact ⟨b, by rw [← h.allBbs]; exact hb, h.sub hx⟩

theorem Shrunk.op {x : Nat} (hx : Live g x) : (g.insn x).op = (f.insn x).op ∧ (g.insn x).bb1 = (f.insn x).bb1 ∧ (g.insn x).bb2 = (f.insn x).bb2 := by
  obtain ⟨φ, e, _⟩ := h.insn x hx
  rw [e]
  exact ⟨rfl, rfl, rfl⟩

theorem Shrunk.inG {b x : Nat} (hx : x ∈ g.body b) : InBody g x :=
  ⟨b, Classical.byContradiction fun hn => (by rw [h.ok.only b hn] at hx; cases hx), hx⟩

theorem Shrunk.keeps {b : Nat} {pre : List Nat} {x : Nat} (e : f.body b = pre ++ [x]) (hx : ends (f.insn x).op = true) : ∃ pre', g.body b = pre' ++ [x] := by
  obtain ⟨D, h1, h2⟩ := h.body
  have : D x = false := by
    cases hd : D x with
    | false => rfl
    | true => rw [h2 x hd] at hx; cases hx
  refine ⟨pre.filter (fun x => !D x), ?_⟩
  rw [h1, e, List.filter_append]
  simp [this]

theorem Shrunk.route {b : Nat} (hr : Route f b) : Route g b := by
  have hop : ∀ {x : Nat}, x ∈ g.body b → (g.insn x).op = (f.insn x).op ∧ (g.insn x).bb1 = (f.insn x).bb1 ∧ (g.insn x).bb2 = (f.insn x).bb2 := fun hx => h.op (.inr (.inr (h.inG hx)))
  cases hr with
  | fall c h1 h2 => exact .fall c (fun x hx => by rw [(hop hx).1]; exact h1 x (h.sub hx)) (by rw [h.succs]; exact h2)
  | ja x pre h1 h2 h3 =>
    obtain ⟨pre', e⟩ := h.keeps h1 (by rw [h2]; rfl)
    have := hop (x := x) (by rw [e]; simp)
    exact .ja x pre' e (by rw [this.1]; exact h2) (by rw [h.succs, this.2.1]; exact h3)
  | cond x pre h1 h2 h3 =>
    obtain ⟨pre', e⟩ := h.keeps h1 (cond_ends h2).1
    have := hop (x := x) (by rw [e]; simp)
    exact .cond x pre' e (by rw [this.1]; exact h2) (by rw [h.succs, this.2.1, this.2.2]; exact h3)
  | ret x pre h1 h2 h3 =>
    obtain ⟨pre', e⟩ := h.keeps h1 (by rw [h2]; rfl)
    have := hop (x := x) (by rw [e]; simp)
    exact .ret x pre' e (by rw [this.1]; exact h2) (by rw [h.succs]; exact h3)

include hf

theorem Shrunk.last : EndsLast g := by
  intro b l z r e hz
  have hzm : z ∈ g.body b := by rw [e]; simp
  have hg := h.inG hzm
  rw [(h.op (.inr (.inr hg))).1] at hz
  obtain ⟨A, B, e'⟩ := List.append_of_mem (h.sub hzm)
  have hB := hf.last b A z B e' hz
  subst hB
  obtain ⟨pre', e''⟩ := h.keeps e' hz
  rw [e''] at e
  have hnd := h.ok.tidy.nodup b (Classical.byContradiction fun hn => by rw [h.ok.only b hn] at hzm; cases hzm)
  rw [e'', e] at hnd
  rcases List.eq_nil_or_concat r with hr | ⟨r', w, hr⟩
  · exact hr
  · subst hr
    exfalso
    have e2 : pre' ++ [z] = (l ++ z :: r') ++ [w] := by rw [e]; simp
    have hw : z = w := by have := List.append_inj_right' e2 rfl; simpa using this
    subst hw
    rw [List.nodup_append] at hnd
    have := (List.nodup_cons.1 hnd.2.1).1
    simp at this

omit hf in
theorem Shrunk.edge {a b : Nat} : Edge g a b ↔ Edge f a b := by
  constructor
  · intro k
    cases k with
    | ja x h1 h2 h3 =>
      have := h.op (.inr (.inr (h.inG h1)))
      exact .ja x (h.sub h1) (by rw [← this.1]; exact h2) (by rw [← this.2.1]; exact h3)
    | cond x h1 h2 h3 =>
      have := h.op (.inr (.inr (h.inG h1)))
      exact .cond x (h.sub h1) (by rw [← this.1]; exact h2) (by rw [← this.2.1, ← this.2.2]; exact h3)
    | fall h1 => exact .fall (by rw [← h.succs]; exact h1)
  · intro k
    obtain ⟨D, d1, d2⟩ := h.body
    have hin : ∀ {x : Nat}, x ∈ f.body a → ends (f.insn x).op = true → x ∈ g.body a := fun {x} hx he => by
      rw [d1, List.mem_filter]
      refine ⟨hx, ?_⟩
      cases hd : D x with
      | false => rfl
      | true => rw [d2 x hd] at he; cases he
    cases k with
    | ja x h1 h2 h3 =>
      have hm := hin h1 (by rw [h2]; rfl)
      have := h.op (.inr (.inr (h.inG hm)))
      exact .ja x hm (by rw [this.1]; exact h2) (by rw [this.2.1]; exact h3)
    | cond x h1 h2 h3 =>
      have hm := hin h1 (cond_ends h2).1
      have := h.op (.inr (.inr (h.inG hm)))
      exact .cond x hm (by rw [this.1]; exact h2) (by rw [this.2.1, this.2.2]; exact h3)
    | fall h1 => exact .fall (by rw [h.succs]; exact h1)

theorem Shrunk.walk {l : List Nat} : Walk g l ↔ Walk f l := by
  constructor
  · intro k
    induction k with
    | entry => rw [h.entry]; exact .entry
    | step a b t _ e ih => exact .step a b t ih (h.edge.1 e)
  · intro k
    induction k with
    | entry => rw [← h.entry]; exact .entry
    | step a b t _ e ih => exact .step a b t ih (h.edge.2 e)

theorem Shrunk.lastJa {b : Nat} (hb : b ∈ f.allBbs) : (graphOf g b).jaTo = (graphOf f b).jaTo := by
  unfold Layout.Blk.jaTo graphOf
  dsimp only
  have hl : ∀ {k : Fn} {x : Nat} {pre : List Nat}, k.body b = pre ++ [x] → lastOf k b = if (k.insn x).op = .ja then .ja (k.insn x).bb1 else if (k.insn x).op.condJmp then .cond (k.insn x).bb1 (k.insn x).bb2 else .other := by
    intro k x pre e
    unfold lastOf
    rw [e, List.getLast?_append]
    rfl
  rcases (hf.route b hb) with ⟨c, h1, h2⟩ | ⟨x, pre, h1, h2, h3⟩ | ⟨x, pre, h1, h2, h3⟩ | ⟨x, pre, h1, h2, h3⟩
  · have no : ∀ k : Fn, (∀ x ∈ k.body b, ends (k.insn x).op = false) → ∀ t, lastOf k b ≠ .ja t := by
      intro k hk t
      unfold lastOf
      split
      · simp
      · rename_i x hx
        have := hk x (List.mem_of_getLast? hx)
        rw [if_neg (by intro e; rw [e] at this; cases this)]
        split <;> simp
    have n1 := no f h1
    have n2 := no g fun x hx => by rw [(h.op (.inr (.inr (h.inG hx)))).1]; exact h1 x (h.sub hx)
    split
    · rename_i t e; exact absurd e (n2 t)
    · cases hc : lastOf f b with
      | ja t => exact absurd hc (n1 t)
      | _ => rfl
  all_goals
    obtain ⟨pre', e⟩ := h.keeps h1 (by first | (rw [h2]; rfl) | exact (cond_ends h2).1)
    have := h.op (x := x) (.inr (.inr (h.inG (b := b) (by rw [e]; simp))))
    rw [hl e, hl h1, this.1, this.2.1, this.2.2]

theorem Shrunk.falls {b c : Nat} (hb : b ∈ f.allBbs) : Layout.Falls (graphOf g) b c ↔ Layout.Falls (graphOf f) b c := by
  unfold Layout.Falls
  rw [h.lastJa hf hb]
  have : (graphOf g b).succs = (graphOf f b).succs := by show g.succs b = f.succs b; rw [h.succs]
  rw [this]

theorem Shrunk.wf : ∃ N, Layout.WF (graphOf g) g.entry N ∧ ∀ b, b < N → b ∈ g.allBbs := by
  obtain ⟨N, w, hN⟩ := hf.wf
  have es : ∀ b, (graphOf g b).succs = (graphOf f b).succs := fun b => by show g.succs b = f.succs b; rw [h.succs]
  have ep : ∀ b, (graphOf g b).preds = (graphOf f b).preds := fun b => by show g.preds b = f.preds b; rw [h.preds]
  refine ⟨N, ⟨by rw [h.entry]; exact w.entry_lt, fun b hb => by rw [es]; exact w.bound b hb, fun b hb => by rw [ep]; exact w.bound' b hb, fun b hb => by rw [es]; exact w.few b hb, ?_,
    fun b c hb => by rw [es, ep]; exact w.edge b c hb, fun b c hb => by rw [es, ep]; exact w.edge' b c hb, fun b hb => by rw [ep]; exact w.preds_nodup b hb, ?_, ?_, ?_⟩, fun b hb => by rw [h.allBbs]; exact hN b hb⟩
  · intro b t ht
    rw [es]
    by_cases hb : b ∈ f.allBbs
    · rw [h.lastJa hf hb] at ht; exact w.ja b t ht
    · exfalso
      have : lastOf g b = .none := by unfold lastOf; rw [h.ok.only b (by rw [h.allBbs]; exact hb)]; rfl
      unfold Layout.Blk.jaTo graphOf at ht
      dsimp only at ht
      rw [this] at ht
      cases ht
  · intro b b' c hb hb' k1 k2
    exact w.uniq b b' c hb hb' ((h.falls hf (hN b hb)).1 k1) ((h.falls hf (hN b' hb')).1 k2)
  · obtain ⟨rank, hr⟩ := w.acyclic
    exact ⟨rank, fun b c hb k => hr b c hb ((h.falls hf (hN b hb)).1 k)⟩
  · intro b hb k
    rw [h.entry] at k
    exact w.entry_head b hb ((h.falls hf (hN b hb)).1 k)

omit hf in
theorem Shrunk.nice {i : Insn} {x : Nat} (hx : InBody g x) (hi : g.insn x = i) {v : Val} (hm : v ∈ operands i) (hv : Nice f v) : Nice g v := by
  rcases hv with hc | ⟨y, rfl, _⟩
  · exact .inl hc
  · refine .inr ⟨y, rfl, ?_⟩
    have hl : Live g y := h.ok.tidy.closed x y (.inr (.inr hx)) (by rw [Edit.refs_eq, hi]; exact List.count_pos_iff.2 hm)
    rename_i hv
    rcases hl with e | e | e
    · exact .inl e
    · exact .inr (.inl e)
    · refine .inr (.inr ⟨e, ?_⟩)
      rw [(h.op (.inr (.inr e))).1]
      rcases hv with e' | e' | ⟨_, e'⟩
      · obtain ⟨b, hb, hy⟩ := e; exact absurd (e'.trans h.sp.symm) (h.ok.tidy.fixed b hb y hy).1
      · obtain ⟨b, hb, hy⟩ := e; exact absurd (by rw [h.args]; exact e') (h.ok.tidy.fixed b hb y hy).2
      · exact e'

theorem Shrunk.fact {x : Nat} (hx : InBody g x) : Fact g (g.insn x) := by
  have k := hf.insn x (h.inBody hx)
  obtain ⟨φ, e, hφ⟩ := h.insn x (.inr (.inr hx))
  have hop : (g.insn x).op = (f.insn x).op := by rw [e]; rfl
  have hnice : ∀ v ∈ operands (g.insn x), Nice g v := by
    intro v hv
    refine h.nice hx rfl hv ?_
    rw [e, Edit.operands_mapOps, List.mem_map] at hv
    obtain ⟨w, hw, rfl⟩ := hv
    rcases hφ w with e' | ⟨z, hz, _, hm⟩
    · rw [e']; exact k.vals w hw
    · exact (hf.insn z hz).vals _ hm
  have hconst : ∀ v ∈ operands (g.insn x), ConstOk v := by
    intro v hv
    rcases hnice v hv with ⟨k, c, rfl⟩ | ⟨y, rfl, _⟩
    · cases k <;> simp [ConstOk]
    · trivial
  have hvl : (g.insn x).vals.length = (f.insn x).vals.length := by rw [e]; simp [mapOps]
  have haux : (g.insn x).aux = (f.insn x).aux := by rw [e]; rfl
  have hno : ∀ o : Op, (o = .store ∨ o = .load ∨ o = .getelemptr ∨ o = .alloc) → liftedOp o → False := by
    intro o ho hl
    rcases ho with rfl | rfl | rfl | rfl <;> rcases hl with hl | hl | hl | hl | hl <;> cases hl
  have hop' := hop ▸ k.op
  refine ⟨by rw [hop]; exact k.op, ⟨?_, ?_, ?_, ?_, ?_, ?_, ?_, ?_, ?_, ?_⟩, ?_, ?_, hnice, ?_, ?_, fun ho => by
    obtain ⟨i1, i2⟩ := k.imm (by rw [← hop]; exact ho)
    exact ⟨by rw [e]; exact i1, List.length_eq_zero_iff.1 (by rw [hvl, i2]; rfl)⟩⟩
  · intro n hn; rw [hvl]; exact k.chk.arity n (by rw [← hop]; exact hn)
  · intro ho; rw [haux]; exact k.chk.swap (by rw [← hop]; exact ho)
  · intro ho
    exact (hno _ (by rcases ho with ho | ho <;> simp [ho]) hop').elim
  · intro ho
    exact (hno _ (by simp [ho]) hop').elim
  · intro ho; rw [haux]; exact k.chk.fid (by rw [← hop]; exact ho)
  · intro ho
    have : (g.insn x).aluOp = (f.insn x).aluOp := by rw [e]; rfl
    rw [this]; exact k.chk.width (by rw [← hop]; exact ho)
  · intro ho
    have : (g.insn x).vrType = (f.insn x).vrType := by rw [e]; rfl
    rw [this]; exact k.chk.size (by rw [← hop]; exact ho)
  · intro v hv; exact hconst v (by unfold operands; simp [hv])
  · intro ho o hm; exact hconst o.2 (by unfold operands; simp only [ho, if_true, List.mem_append, List.mem_map]; exact .inl (.inr ⟨o, hm, rfl⟩))
  · intro ho
    refine hconst _ ?_
    have : raw (g.insn x).op = true := by unfold raw; rcases ho with ho | ho <;> simp [ho]
    unfold operands
    simp [this]
  · intro ho ha
    rw [hvl, haux]
    exact k.call (by rw [← hop]; exact ho) (by rw [← haux]; exact ha)
  · intro hr
    have : (g.insn x).addr = if raw (f.insn x).op then φ (f.insn x).addr else (f.insn x).addr := by rw [e]; rfl
    rw [this, if_neg (by rw [← hop, hr]; simp)]
    exact k.addr (by rw [← hop]; exact hr)
  · intro o ho
    have : (g.insn x).phi = if (f.insn x).op = .phi then (f.insn x).phi.map (fun o => (o.1, φ o.2)) else (f.insn x).phi := by rw [e]; rfl
    rw [this] at ho
    rw [h.allBbs]
    split at ho
    · rw [List.mem_map] at ho
      obtain ⟨o', ho', rfl⟩ := ho
      exact k.labels o' ho'
    · exact k.labels o ho
  · have : (g.insn x).phi = if (f.insn x).op = .phi then (f.insn x).phi.map (fun o => (o.1, φ o.2)) else (f.insn x).phi := by rw [e]; rfl
    rw [this]
    split
    · rw [List.map_map]; exact k.once
    · exact k.once

theorem Shrunk.code (hs : Ssa g) (ho : Ordered g) : Code g where
  ok := h.ok
  ssa := hs
  ordered := ho
  last := h.last hf
  graph := by
    have k := hf.graph
    refine ⟨?_, ?_, ?_⟩
    · rw [h.allBbs, h.succs, h.preds]; exact k.sym
    · rw [h.allBbs, h.succs]; exact k.succs
    · rw [h.allBbs, h.preds]; exact k.preds
  route := fun b hb => h.route (hf.route b (by rw [← h.allBbs]; exact hb))
  entry := by rw [h.entry, h.allBbs]; exact hf.entry
  first := by rw [h.preds, h.entry]; exact hf.first
  conn := fun b hb => by
    have := hf.conn b (by rw [← h.allBbs]; exact hb)
    clear hb
    induction this with
    | entry => rw [← h.entry]; exact .entry
    | step h1 h2 ih => exact .step ih (by rw [h.succs]; exact h2)
  wf := h.wf hf
  insn := fun x hx => h.fact hf hx
  fixed := fun y hy => by
    have hl : Live g y := hy.imp id .inl
    have k := hf.fixed y (by rw [← h.sp, ← h.args]; exact hy)
    obtain ⟨φ, e, _⟩ := h.insn y hl
    refine ⟨?_, by rw [(h.op hl).1]; exact k.2⟩
    rw [e, Edit.operands_mapOps, k.1]
    rfl
  reg := by rw [(h.op (.inl rfl)).1, h.sp]; exact hf.reg
  five := by rw [h.args]; exact hf.five
  distinct := by rw [h.args]; exact hf.distinct
  sp := by rw [h.args, h.sp]; exact hf.sp

end

/-! ## The two passes -/

section
variable {f g : Fn} {R : List Nat}

theorem Shrunk.pruned (h : Phi.Pruned R f g) : Shrunk f g := by
  obtain ⟨D, h1, h2⟩ := h.body
  exact ⟨h.ok, h.allBbs, h.entry, h.args, h.sp, h.succs, h.preds, ⟨D, h1, fun x hx => by rw [(h2 x hx).1]; rfl⟩, h.insn⟩

theorem Shrunk.cut (h : Dead.Cut R f g) : Shrunk f g := by
  obtain ⟨D, h1, h2⟩ := h.body
  refine ⟨h.ok, h.allBbs, h.entry, h.args, h.sp, h.succs, h.preds, ⟨D, h1, fun x hx => ?_⟩, fun x _ => ⟨id, by rw [h.insn]; exact (Edit.mapOps_id fun _ _ => rfl).symm, fun _ => .inl rfl⟩⟩
  have := (h2 x hx).1
  revert this
  cases (f.insn x).op <;> decide

theorem Shrunk.parent (h : Shrunk f g) (hf : Ok f) {y : Nat} (hy : InBody g y) : g.parent y = f.parent y := by
  obtain ⟨b, hb, hm⟩ := hy
  rw [h.ok.tidy.parent b hb y hm, hf.tidy.parent b (by rw [← h.allBbs]; exact hb) y (h.sub hm)]

theorem Shrunk.sameSsa (h : Shrunk f g) (hf : Code f) (hi : g.insn = f.insn) : Ssa g := by
  have hs := hf.ssa
  have hd : ∀ {a b}, Dom f a b → Dom g a b := fun k l hl => k l ((h.walk hf).1 hl)
  refine ⟨fun b z hz ho y hy hr => ?_, fun b z hz ho p y hm hy => ?_, fun b z hz ho p l hl he => ?_, fun z hz => ?_, fun b z hz ho a ha => ?_⟩
  · rw [h.parent hf.ok hy]
    rw [hi] at ho hr
    exact hd (hs.uses b z (h.sub hz) ho y (h.inBody hy) hr)
  · rw [h.parent hf.ok hy]
    rw [hi] at ho hm
    exact hd (hs.phiUses b z (h.sub hz) ho p y hm (h.inBody hy))
  · rw [hi] at ho ⊢
    exact hs.phiAll b z (h.sub hz) ho p l ((h.walk hf).1 hl) (h.edge.1 he)
  · rw [hi]
    rw [h.entry] at hz
    exact hs.entry z (h.sub hz)
  · rw [hi] at ho ha ⊢
    exact hs.vars b z (h.sub hz) ho a ha

theorem Shrunk.sameOrdered (h : Shrunk f g) (hf : Code f) (hi : g.insn = f.insn) : Ordered g := by
  intro b ⟨k, hk⟩ l z r e ho y hy
  obtain ⟨D, d1, d2⟩ := h.body
  rw [d1, List.filter_eq_append_iff] at e
  obtain ⟨l1, l2, e1, _, e3⟩ := e
  rw [List.filter_eq_cons_iff] at e3
  obtain ⟨m1, m2, e4, _, _, e5⟩ := e3
  rw [hi] at ho ⊢
  refine hf.ordered b ⟨k, (h.walk hf).1 hk⟩ (l1 ++ m1) z m2 (by rw [e1, e4]; simp) ho y ?_
  rcases List.mem_cons.1 hy with rfl | hy
  · simp
  · rw [← e5, List.mem_filter] at hy
    exact List.mem_cons_of_mem _ hy.1

theorem Code.pruned (hf : Code f) (h : Phi.Pruned R f g) : Code g := (Shrunk.pruned h).code hf h.ssa (h.ordered hf.ordered)

theorem Code.cut (hf : Code f) (h : Dead.Cut R f g) : Code g := (Shrunk.cut h).code hf ((Shrunk.cut h).sameSsa hf h.insn) ((Shrunk.cut h).sameOrdered hf h.insn)

end

end Verif.Pipe
