import Verif.Heap.Lemmas
/-!
# The editing interface and freeing keep track of memory
-/
namespace Verif.Heap
open Verif

/-! ## Instructions -/

theorem addUser_fine {x : List Ptr} {s : St} {v : Option Ptr} {u : Ptr} (k : Sound x s) : Fine (addUser v u s) (Sound x) := by
  unfold addUser
  split
  · exact .ok k
  · refine onInsn_fine k ?_
    intro h i l g
    have g0 : Good h (i.users.own ++ ([i.self] ++ (i.phi.map Arr.own).getD [] ++ l)) := g.perm fun a => by
      simp only [Insn.own, List.count_append]
      omega
    refine (g0.push (x := u)).bind ?_
    rintro ⟨h', a'⟩ ⟨g1, _⟩
    refine .ok ⟨g1.perm fun a => ?_, rfl⟩
    simp only [Insn.own, List.count_append]
    omega

theorem removeUser_fine {x : List Ptr} {s0 s : St} {v : Option Ptr} {u : Ptr} (k : Sound x s ∧ ∀ i ∈ s.f.insns, ∃ j ∈ s0.f.insns, i.self = j.self ∧ i.phi = j.phi) :
    Fine (removeUser v u s) (fun s' => Sound x s' ∧ ∀ i ∈ s'.f.insns, ∃ j ∈ s0.f.insns, i.self = j.self ∧ i.phi = j.phi) := by
  unfold removeUser
  split
  · exact .ok k
  · next p =>
    have h1 : Fine (onInsn p (fun h i => .ok (h, { i with users := i.users.remove u })) s) (Sound x) := by
      refine onInsn_fine k.1 ?_
      intro h i l g
      exact .ok ⟨g, rfl⟩
    refine ⟨h1.1, fun s' e => ⟨h1.2 s' e, ?_⟩⟩
    unfold onInsn at e
    split at e
    · cases e
    · next i is e' =>
      cases e
      have hp := (takeInsn_perm e').1
      intro q hq
      rcases List.mem_cons.mp hq with rfl | hq
      · exact k.2 i (hp.mem_iff.mpr (by simp))
      · exact k.2 q (hp.mem_iff.mpr (List.mem_cons_of_mem _ hq))

theorem createInsn_fine {x : List Ptr} {s : St} {b : Ptr} {vals : List (Option Ptr)} {phi : Bool} (k : Sound x s) : Fine (createInsn b vals phi s) (Sound x) := by
  unfold createInsn
  split
  · exact .crit
  · next r e =>
    refine each_fine (fun v s hs => addUser_fine hs) (Sound.mk' ?_ ?_)
    · refine k.good.malloc.perm fun a => ?_
      have : (((if phi then some (Arr.init : Arr (Option Ptr)) else none).map Arr.own).getD []).count a = 0 := by
        cases phi <;> rfl
      simp only [Fn.own, parts, Insn.own, init_own, List.flatMap_cons, List.count_append, List.count_nil] at this ⊢
      omega
    · obtain ⟨hp, hs⟩ := takeBlock_perm (i := r.1) (r := r.2) e
      refine ⟨?_, k.reach, k.distinct⟩
      intro i hi b' e'
      rcases List.mem_cons.mp hi with rfl | hi
      · cases e'
        exact ⟨r.1, hp.mem_iff.mpr (by simp), hs⟩
      · exact k.home i hi b' e'

theorem phiAddOperand_fine {x : List Ptr} {s : St} {p : Ptr} {v : Option Ptr} (k : Sound x s) : Fine (phiAddOperand p v s) (Sound x) := by
  unfold phiAddOperand
  refine (onInsn_fine k ?_).bind fun s' k' => addUser_fine k'
  intro h i l g
  split
  · exact .crit
  · next a e =>
    have g0 : Good h (a.own ++ ([i.self] ++ i.users.own ++ l)) := g.perm fun b => by
      simp only [Insn.own, e, Option.map_some, Option.getD_some, List.count_append]
      omega
    refine (g0.push (x := v)).bind ?_
    rintro ⟨h', a'⟩ ⟨g1, _⟩
    refine .ok ⟨g1.perm fun b => ?_, rfl⟩
    simp only [Insn.own, Option.map_some, Option.getD_some, List.count_append]
    omega

theorem getOperands_fine {h : Heap} {l : List Ptr} {i : Insn} (g : Good h l) : Fine (getOperands i h) (fun r => Good r.1 (r.2.own ++ l) ∧ r.2.elems = i.operands) := by
  unfold getOperands
  refine (Good.pushAll (a := .init) (l := l) ?_).mono ?_
  · rw [init_own]; exact g
  · intro r hr
    exact ⟨hr.1, by rw [hr.2]; rfl⟩

/-- Other memory can be set aside. -/
theorem Sound.aside {x y : List Ptr} {s : St} {h : Heap} (k : Sound x s) (g : Good h (y ++ (s.f.own ++ x))) : Sound (y ++ x) ⟨h, s.f⟩ := by
  refine Sound.mk' (g.perm fun a => ?_) k.shaped
  simp only [List.count_append]
  omega

theorem Sound.back {x y : List Ptr} {s : St} (k : Sound (y ++ x) s) : Good s.h (y ++ (s.f.own ++ x)) := by
  refine k.good.perm fun a => ?_
  simp only [List.count_append]
  omega

theorem eraseInsn_fine {x : List Ptr} {s : St} {p : Ptr} (k : Sound x s) :
    Fine (eraseInsn p s) (fun s' => ∃ i ∈ s.f.insns, i.self = p ∧ Sound ((i.phi.map Arr.own).getD [] ++ x) s') := by
  unfold eraseInsn
  split
  · exact .crit
  · next i is e =>
    split
    · exact .err
    · refine (getOperands_fine k.good).bind ?_
      rintro ⟨h1, a⟩ ⟨g1, _⟩
      refine (each_fine (fun v t ht => removeUser_fine (s0 := s) ht) ⟨k.aside g1, fun i hi => ⟨i, hi, rfl, rfl⟩⟩).bind ?_
      rintro s1 ⟨k1, hj⟩
      refine k1.back.freeArr.fine.bind ?_
      intro h2 g2
      split
      · exact .crit
      · next j js e2 =>
        obtain ⟨hp, hs⟩ := takeInsn_perm e2
        obtain ⟨q, hq, hq1, hq2⟩ := hj j (hp.mem_iff.mpr (by simp))
        have g3 : Good h2 (j.users.own ++ ([p] ++ ((([s1.f.self] ++ (js.flatMap Insn.own ++ s1.f.blocks.flatMap Block.own ++ (s1.f.all.own ++ (s1.f.reach.own ++ s1.f.ends.own)))) ++ ((q.phi.map Arr.own).getD [] ++ x))))) := by
          refine g2.perm fun b => ?_
          have := count_insns hp b
          simp only [Fn.own, parts, Insn.own, List.flatMap_cons, List.count_append, hs, hq2] at this ⊢
          omega
        refine g3.freeArr.fine.bind ?_
        intro h4 g4
        refine g4.free.fine.bind ?_
        intro h5 g5
        refine .ok ⟨q, hq, hq1 ▸ hs, Sound.mk' g5 (k1.shaped.insns ?_)⟩
        intro r hr
        exact ⟨r, hp.mem_iff.mpr (List.mem_cons_of_mem _ hr), rfl⟩

theorem replaceIn_fine {x : List Ptr} {s : St} {p u : Ptr} {rep : Option Ptr} (k : Sound x s) : Fine (replaceIn p rep u s) (Sound x) := by
  unfold replaceIn
  split
  · exact .crit
  · next i is e =>
    obtain ⟨hp, hs⟩ := takeInsn_perm e
    refine (getOperands_fine k.good).bind ?_
    rintro ⟨h1, a⟩ ⟨g1, _⟩
    have k1 : Sound (a.own ++ x) ⟨h1, { s.f with insns := { i with vals := i.vals.map (swapVal p rep), phi := i.phi.map (fun a => { a with elems := a.elems.map (swapVal p rep) }) } :: is }⟩ := by
      refine Sound.mk' (g1.perm fun b => ?_) (k.shaped.insns ?_)
      · have := count_insns hp b
        have e2 : ((i.phi.map (fun a => { a with elems := a.elems.map (swapVal p rep) })).map Arr.own).getD [] = (i.phi.map Arr.own).getD [] := by
          cases i.phi <;> rfl
        simp only [Fn.own, parts, Insn.own, List.flatMap_cons, List.count_append, e2] at this ⊢
        omega
      · intro q hq
        rcases List.mem_cons.mp hq with rfl | hq
        · exact ⟨i, hp.mem_iff.mpr (by simp), rfl⟩
        · exact ⟨q, hp.mem_iff.mpr (List.mem_cons_of_mem _ hq), rfl⟩
    refine (each_fine (fun _ t ht => addUser_fine ht) k1).bind ?_
    intro s2 k2
    refine k2.back.freeArr.fine.bind ?_
    intro h3 g3
    exact .ok (Sound.mk' g3 k2.shaped)

theorem replaceAll_fine {x : List Ptr} {s : St} {p : Ptr} {rep : Option Ptr} (k : Sound x s) : Fine (replaceAll p rep s) (Sound x) := by
  unfold replaceAll
  split
  · exact .crit
  · next i is e =>
    obtain ⟨hp, hs⟩ := takeInsn_perm e
    have k1 : Sound (i.users.own ++ x) { s with f := { s.f with insns := { i with users := .init } :: is } } := by
      refine Sound.mk' (k.good.perm fun b => ?_) (k.shaped.insns ?_)
      · have := count_insns hp b
        simp only [Fn.own, parts, Insn.own, init_own, List.flatMap_cons, List.count_append, List.count_nil] at this ⊢
        omega
      · intro q hq
        rcases List.mem_cons.mp hq with rfl | hq
        · exact ⟨i, hp.mem_iff.mpr (by simp), rfl⟩
        · exact ⟨q, hp.mem_iff.mpr (List.mem_cons_of_mem _ hq), rfl⟩
    refine (each_fine (fun u t ht => replaceIn_fine ht) k1).bind ?_
    intro s2 k2
    refine k2.back.freeArr.fine.bind ?_
    intro h3 g3
    exact .ok (Sound.mk' g3 k2.shaped)

/-! ## Blocks -/

theorem createBb_fine {x : List Ptr} {s : St} (k : Sound x s) : Fine (createBb s) (fun r => Sound x r.2 ∧ ∃ y ∈ r.2.f.blocks, y.self = r.1) := by
  unfold createBb
  have g0 : Good s.h.malloc.2 (s.f.all.own ++ ([s.h.malloc.1] ++ ([s.f.self] ++ (parts s.f.insns s.f.blocks ++ (s.f.reach.own ++ s.f.ends.own)) ++ x))) := by
    refine k.good.malloc.perm fun a => ?_
    simp only [Fn.own, List.count_append]
    omega
  refine (g0.push (x := s.h.malloc.1)).bind ?_
  rintro ⟨h1, a⟩ ⟨g1, _⟩
  refine .ok ⟨Sound.mk' (g1.perm fun b => ?_) ?_, _, List.mem_cons_self, rfl⟩
  · simp only [Fn.own, parts, Block.own, init_own, List.flatMap_cons, List.count_append, List.count_nil]
    omega
  · have := k.shaped.blocks (bs := ⟨s.h.malloc.1, .init, .init⟩ :: s.f.blocks) fun y hy => ⟨y, List.mem_cons_of_mem _ hy, rfl⟩
    exact ⟨this.home, this.reach, this.distinct⟩

/-- Sound, and the blocks `bs` are there. -/
def With (x : List Ptr) (bs : List Ptr) (s : St) : Prop := Sound x s ∧ ∀ b ∈ bs, ∃ y ∈ s.f.blocks, y.self = b

theorem onBlock_with {x bs : List Ptr} {s : St} {p : Ptr} {g : Heap → Block → Out (Heap × Block)} (k : With x bs s)
    (hg : ∀ h i l, Good h (i.own ++ l) → Fine (g h i) (fun r => Good r.1 (r.2.own ++ l) ∧ r.2.self = i.self)) : Fine (onBlock p g s) (With x bs) :=
  (onBlock_fine k.1 hg).mono fun s' h => ⟨h.1, fun b hb => h.2.2 b (k.2 b hb)⟩

theorem connect_fine {x bs : List Ptr} {s : St} {a b : Ptr} (k : With x bs s) : Fine (connect a b s) (With x bs) := by
  unfold Verif.Heap.connect
  refine (onBlock_with k ?_).bind fun s1 k1 => onBlock_with k1 ?_
  · intro h i l g
    have g0 : Good h (i.succs.own ++ ([i.self] ++ i.preds.own ++ l)) := g.perm fun c => by
      simp only [Block.own, List.count_append]
      omega
    refine (g0.pushUnique (x := b)).bind ?_
    rintro ⟨h1, c⟩ g1
    refine .ok ⟨g1.perm fun d => ?_, rfl⟩
    simp only [Block.own, List.count_append]
    omega
  · intro h i l g
    have g0 : Good h (i.preds.own ++ ([i.self] ++ i.succs.own ++ l)) := g.perm fun c => by
      simp only [Block.own, List.count_append]
      omega
    refine (g0.pushUnique (x := a)).bind ?_
    rintro ⟨h1, c⟩ g1
    refine .ok ⟨g1.perm fun d => ?_, rfl⟩
    simp only [Block.own, List.count_append]
    omega

theorem disconnect_fine {x bs : List Ptr} {s : St} {a b : Ptr} (k : With x bs s) : Fine (disconnect a b s) (With x bs) := by
  unfold Verif.Heap.disconnect
  refine (onBlock_with k ?_).bind fun s1 k1 => onBlock_with k1 ?_
  · intro h i l g
    exact .ok ⟨g, rfl⟩
  · intro h i l g
    exact .ok ⟨g, rfl⟩

theorem splitBb_fine {x : List Ptr} {s : St} {b : Ptr} {moved : List Ptr} (k : Sound x s) : Fine (splitBb b moved s) (fun r => Sound x r.2) := by
  unfold splitBb
  refine (createBb_fine k).bind ?_
  rintro ⟨n, s1⟩ ⟨k1, hn⟩
  dsimp only at k1 hn ⊢
  split
  · exact .crit
  · next y bs e =>
    obtain ⟨hp, hs⟩ := takeBlock_perm e
    have hb : ∀ z ∈ s1.f.blocks, ∃ w ∈ { y with succs := .init } :: bs, w.self = z.self := by
      intro z hz
      rcases List.mem_cons.mp (hp.mem_iff.mp hz) with rfl | hz
      · exact ⟨_, List.mem_cons_self, rfl⟩
      · exact ⟨z, List.mem_cons_of_mem _ hz, rfl⟩
    have k2 : With (y.succs.own ++ x) [n] { s1 with f := { s1.f with blocks := { y with succs := .init } :: bs } } := by
      refine ⟨Sound.mk' (k1.good.perm fun a => ?_) (k1.shaped.blocks hb), ?_⟩
      · have := count_blocks hp a
        simp only [Fn.own, parts, Block.own, init_own, List.flatMap_cons, List.count_append, List.count_nil] at this ⊢
        omega
      · intro m hm
        obtain rfl := List.mem_singleton.mp hm
        obtain ⟨z, hz, e'⟩ := hn
        obtain ⟨w, hw, e''⟩ := hb z hz
        exact ⟨w, hw, e''.trans e'⟩
    refine (connect_fine k2).bind ?_
    intro s3 k3
    refine (each_fine (fun z t ht => (disconnect_fine ht).bind fun t' ht' => connect_fine ht') k3).bind ?_
    intro s4 k4
    refine k4.1.back.freeArr.fine.bind ?_
    intro h5 g5
    split
    · exact .err
    · refine .ok (Sound.mk' (g5.perm fun a => ?_) ⟨?_, k4.1.reach, k4.1.distinct⟩)
      · have : (s4.f.insns.map (fun i => if i.home = .block b ∧ i.self ∈ moved then { i with home := .block n } else i)).flatMap Insn.own = s4.f.insns.flatMap Insn.own := by
          rw [List.flatMap_map]
          congr 1
          funext i
          split <;> rfl
        simp only [Fn.own, parts, this]
      · intro i hi c e'
        obtain ⟨j, hj, rfl⟩ := List.mem_map.mp hi
        split at e'
        · cases e'
          exact k4.2 n (by simp)
        · exact k4.1.home j hj c e'

theorem createErrorBlock_fine {x : List Ptr} {s : St} {b : Ptr} {moved : List Ptr} (k : Sound x s) : Fine (createErrorBlock b moved s) (Sound x) := by
  unfold createErrorBlock
  refine (splitBb_fine k).bind ?_
  rintro ⟨n, s1⟩ k1
  refine (createBb_fine k1).bind ?_
  rintro ⟨e, s2⟩ ⟨k2, _⟩
  refine (createInsn_fine k2).bind ?_
  intro s3 k3
  exact (connect_fine (bs := []) ⟨k3, by simp⟩).mono fun _ h => h.1

theorem genReach_fine {x : List Ptr} {s : St} {todo R E : List Ptr} (k : Sound x s) : Fine (genReach todo R E s) (Sound x) := by
  unfold genReach
  split
  · next hR =>
    have g0 : Good s.h (s.f.reach.own ++ ([s.f.self] ++ (parts s.f.insns s.f.blocks ++ (s.f.all.own ++ s.f.ends.own)) ++ x)) := by
      refine k.good.perm fun a => ?_
      simp only [Fn.own, List.count_append]
      omega
    refine g0.clear.bind ?_
    rintro ⟨h1, c⟩ ⟨g1, ec⟩
    dsimp only at g1 ec ⊢
    refine (Good.pushAll (a := (.init : Arr Ptr)) (xs := todo) (l := c.own ++ ([s.f.self] ++ (parts s.f.insns s.f.blocks ++ (s.f.all.own ++ s.f.ends.own)) ++ x)) g1).bind ?_
    rintro ⟨h2, t⟩ ⟨g2, _⟩
    dsimp only at g2 ⊢
    refine (Good.pushAll (a := c) (xs := R) (l := t.own ++ ([s.f.self] ++ (parts s.f.insns s.f.blocks ++ (s.f.all.own ++ s.f.ends.own)) ++ x)) (g2.perm fun a => ?_)).bind ?_
    · simp only [List.count_append]
      omega
    rintro ⟨h3, r⟩ ⟨g3, er⟩
    dsimp only at g3 er ⊢
    have g4 : Good h3 (t.own ++ (s.f.ends.own ++ (r.own ++ ([s.f.self] ++ (parts s.f.insns s.f.blocks ++ s.f.all.own) ++ x)))) := g3.perm fun a => by
      simp only [List.count_append]
      omega
    refine g4.freeArr.fine.bind ?_
    intro h5 g5
    refine g5.clear.bind ?_
    rintro ⟨h6, d⟩ ⟨g6, _⟩
    refine (Good.pushAll (xs := E) g6).bind ?_
    rintro ⟨h7, e⟩ ⟨g7, _⟩
    have eR : r.elems = R := by rw [er, ec]; rfl
    refine .ok (Sound.mk' (g7.perm fun a => ?_) ⟨k.home, ?_, ?_⟩)
    · simp only [Fn.own, List.count_append]
      omega
    · intro b hb
      dsimp only at hb
      rw [eR] at hb
      exact List.mem_map.mp (hR.2 b hb)
    · dsimp only
      rw [eR]
      exact hR.1
  · exact .crit

/-! ## Histories -/

theorem step_fine {x : List Ptr} {s : St} {e : Edit} (k : Sound x s) :
    Fine (step e s) (fun s' => ∃ y, Sound (y ++ x) s' ∧ (Spares s e → y = [])) := by
  have h0 : ∀ {s'}, Sound x s' → ∃ y, Sound (y ++ x) s' ∧ (Spares s e → y = []) := fun h => ⟨[], h, fun _ => rfl⟩
  cases e with
  | insn b vals phi => exact (createInsn_fine k).mono fun _ h => h0 h
  | operand p v => exact (phiAddOperand_fine k).mono fun _ h => h0 h
  | erase p =>
    refine (eraseInsn_fine k).mono ?_
    rintro s' ⟨i, hi, e, k'⟩
    refine ⟨_, k', fun hq => ?_⟩
    cases e' : i.phi with
    | none => rfl
    | some a =>
      have := hq i hi e a e'
      simp [Arr.own, this]
  | replace p rep => exact (replaceAll_fine k).mono fun _ h => h0 h
  | block => exact (createBb_fine k).bind fun r hr => .ok (h0 hr.1)
  | connect a b => exact (connect_fine (bs := []) ⟨k, by simp⟩).mono fun _ h => h0 h.1
  | disconnect a b => exact (disconnect_fine (bs := []) ⟨k, by simp⟩).mono fun _ h => h0 h.1
  | split b moved => exact (splitBb_fine k).bind fun r hr => .ok (h0 hr)
  | error b moved => exact (createErrorBlock_fine k).mono fun _ h => h0 h
  | process todo R E => exact (genReach_fine k).mono fun _ h => h0 h

theorem run_fine {es : List Edit} : ∀ {x : List Ptr} {s : St}, Sound x s →
    Fine (run es s) (fun s' => ∃ y, Sound (y ++ x) s' ∧ (SparesAll es s → y = [])) := by
  induction es with
  | nil => intro x s k; exact .ok ⟨[], k, fun _ => rfl⟩
  | cons e es ih =>
    intro x s k
    have h1 := step_fine (e := e) k
    unfold run
    cases e1 : step e s with
    | ok s1 =>
      obtain ⟨y, k1, hy⟩ := h1.2 s1 e1
      refine (ih k1).mono ?_
      rintro s2 ⟨z, k2, hz⟩
      refine ⟨z ++ y, by rw [List.append_assoc]; exact k2, ?_⟩
      rintro ⟨ha, hb⟩
      rw [hz (hb s1 e1), hy ha]
      rfl
    | err => exact Fine.err
    | crit => exact Fine.crit
    | ub => exact absurd e1 h1.1

/-! ## Freeing -/

theorem freeInsn_sure {h : Heap} {l : List Ptr} {i : Insn} (g : Good h (i.own ++ l)) : Sure (freeInsn h i) (fun h' => Good h' l) := by
  unfold freeInsn
  have g0 : Good h (i.users.own ++ ((i.phi.map Arr.own).getD [] ++ ([i.self] ++ l))) := g.perm fun a => by
    simp only [Insn.own, List.count_append]
    omega
  refine g0.freeArr.bind ?_
  intro h1 g1
  refine Sure.bind (Q := fun h' => Good h' ([i.self] ++ l)) ?_ fun h2 g2 => g2.free
  cases e : i.phi with
  | none => rw [e] at g1; exact ⟨_, rfl, g1⟩
  | some a => rw [e] at g1; exact Good.freeArr g1

theorem freeInsns_sure {is : List Insn} : ∀ {h : Heap} {l : List Ptr}, Good h (is.flatMap Insn.own ++ l) → Sure (freeInsns h is) (fun h' => Good h' l) := by
  induction is with
  | nil => intro h l g; exact ⟨_, rfl, g⟩
  | cons i is ih =>
    intro h l g
    rw [List.flatMap_cons, List.append_assoc] at g
    exact (freeInsn_sure g).bind fun h1 g1 => ih g1

theorem count_filter {is : List Insn} (q : Insn → Bool) (a : Ptr) :
    (is.flatMap Insn.own).count a = ((is.filter q).flatMap Insn.own).count a + ((is.filter (fun i => !q i)).flatMap Insn.own).count a := by
  induction is with
  | nil => rfl
  | cons i is ih =>
    cases h : q i <;> simp only [List.filter_cons, h, List.flatMap_cons, List.count_append, ih, Bool.not_true, Bool.not_false, if_true, Bool.false_eq_true, if_false] <;> omega

/-- The instruction is in one of the blocks. -/
def Insn.inAny (bs : List Ptr) (i : Insn) : Bool := bs.any (fun b => i.isIn b)

theorem freeBlocks_sure {bs : List Ptr} : ∀ {x : List Ptr} {s : St}, Good s.h (s.f.own ++ x) → (∀ b ∈ bs, ∃ y ∈ s.f.blocks, y.self = b) → bs.Nodup → (s.f.blocks.map (·.self)).Nodup →
    Sure (freeBlocks bs s) (fun s' => Good s'.h (s'.f.own ++ x) ∧ s'.f.insns = s.f.insns.filter (fun i => !i.inAny bs) ∧
      s'.f.blocks.Perm (s.f.blocks.filter (fun b => !bs.contains b.self)) ∧ s'.f.self = s.f.self ∧ s'.f.all = s.f.all ∧ s'.f.reach = s.f.reach ∧ s'.f.ends = s.f.ends) := by
  induction bs with
  | nil =>
    intro x s g _ _ _
    refine ⟨s, rfl, g, ?_, ?_, rfl, rfl, rfl, rfl⟩
    · exact (List.filter_eq_self.mpr (fun _ _ => rfl)).symm
    · exact .of_eq (List.filter_eq_self.mpr (fun _ _ => rfl)).symm
  | cons b bs ih =>
    intro x s g hb hn hd
    obtain ⟨⟨y, ys⟩, e⟩ := takeBlock_some (hb b (by simp))
    obtain ⟨hp, hs⟩ := takeBlock_perm e
    obtain ⟨hn1, hn2⟩ := List.nodup_cons.mp hn
    have hd2 : ((y :: ys).map (·.self)).Nodup := (hp.map _).nodup_iff.mp hd
    obtain ⟨hd3, hd4⟩ := List.nodup_cons.mp hd2
    unfold freeBlocks
    rw [e]
    dsimp only
    have g0 : Good s.h (y.preds.own ++ (y.succs.own ++ ((s.f.insns.filter (Insn.isIn b)).flatMap Insn.own ++ ([b] ++ (({ s.f with blocks := ys, insns := s.f.insns.filter (fun i => !i.isIn b) } : Fn).own ++ x))))) := by
      refine g.perm fun a => ?_
      have h1 := count_blocks hp a
      have h2 := count_filter (is := s.f.insns) (Insn.isIn b) a
      simp only [Fn.own, parts, Block.own, List.flatMap_cons, List.count_append, hs] at h1 h2 ⊢
      omega
    refine g0.freeArr.bind fun h1 g1 => g1.freeArr.bind fun h2 g2 => (freeInsns_sure g2).bind fun h3 g3 => g3.free.bind fun h4 g4 => ?_
    obtain ⟨s', e', k1, k2, k3, k4⟩ := ih (s := ⟨h4, { s.f with blocks := ys, insns := s.f.insns.filter (fun i => !i.isIn b) }⟩) g4 (by
      intro c hc
      obtain ⟨z, hz, ez⟩ := hb c (List.mem_cons_of_mem _ hc)
      rcases List.mem_cons.mp (hp.mem_iff.mp hz) with rfl | hz
      · exact absurd (hs.symm.trans ez ▸ hc) hn1
      · exact ⟨z, hz, ez⟩) hn2 hd4
    refine ⟨s', e', k1, ?_, ?_, k4⟩
    · rw [k2]
      dsimp only
      rw [List.filter_filter]
      congr 1
      funext i
      simp [Insn.inAny, Bool.not_or, Bool.and_comm]
    · refine k3.trans ?_
      dsimp only
      refine List.Perm.trans ?_ ((hp.filter _).symm)
      have e1 : (y :: ys).filter (fun c => !(b :: bs).contains c.self) = ys.filter (fun c => !(b :: bs).contains c.self) := by
        rw [List.filter_cons_of_neg]
        simp [hs]
      rw [e1]
      refine List.Perm.of_eq (List.filter_congr fun z hz => ?_)
      have : z.self ≠ b := fun h => hd3 (List.mem_map.mpr ⟨z, hz, h.trans hs.symm⟩)
      simp [this]

end Verif.Heap
