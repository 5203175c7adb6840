import Verif.Ecall.Model
import Verif.Ecall.Chain
/-!
# The edits of the pass
-/
namespace Verif.Ecall
open Verif Verif.IR Verif.Edit Verif.Guard

/-! ## Scalars -/

theorem isNonptr_spec {f : Fn} : ∀ (k : Nat) {v : Val} {t : Bool}, isNonptr f k v = .ok t → (t = true ↔ Scalar f v)
  | 0, _, _, h => by cases h
  | k + 1, .const .., _, h => by cases h; exact ⟨fun _ => .const .., fun _ => rfl⟩
  | k + 1, .undef, _, h => by cases h; exact ⟨fun _ => .undef, fun _ => rfl⟩
  | k + 1, .insn x, t, h => by
    rw [isNonptr] at h
    split at h
    · rename_i hop
      cases h
      exact ⟨fun _ => .load hop, fun _ => rfl⟩
    · rename_i hnl
      split at h
      · rename_i hop
        split at h
        · rename_i v w hvw
          have inv : Scalar f (.insn x) → Scalar f v ∧ Scalar f w := by
            intro hs
            cases hs with
            | load hl => exact absurd hl hnl
            | arith _ e h1 h2 => rw [hvw] at e; cases e; exact ⟨h1, h2⟩
          split at h
          · rename_i h1
            have i1 := (isNonptr_spec k h1).1 rfl
            have i2 := isNonptr_spec k h
            exact ⟨fun e => .arith hop hvw i1 (i2.1 e), fun hs => i2.2 (inv hs).2⟩
          · rename_i hr
            cases t with
            | true => exact absurd h hr
            | false =>
              have i1 := isNonptr_spec k h
              exact ⟨fun e => (nomatch e), fun hs => i1.2 (inv hs).1⟩
        · cases h
      · rename_i hna
        cases h
        refine ⟨fun e => (nomatch e), fun hs => ?_⟩
        cases hs with
        | load hl => exact absurd hl hnl
        | arith hop => exact absurd hop hna

/-- The value is looked at no deeper than `k`. -/
theorem isNonptr_ok {f : Fn} (ht : Tidy f) {rk : Nat → Nat} (h2 : ∀ x, Live f x → (f.insn x).op.binAlu = true → ∃ v w, (f.insn x).vals = [v, w])
    (hr : ∀ x y, Live f x → (f.insn x).op.binAlu = true → .insn y ∈ (f.insn x).vals → rk y < rk x) :
    ∀ (k : Nat) (v : Val), LiveVal f v → 0 < k → (∀ x, v = .insn x → rk x + 1 < k) → ∃ t, isNonptr f k v = .ok t
  | 0, _, _, h, _ => absurd h (by simp)
  | k + 1, .const .., _, _, _ => ⟨true, rfl⟩
  | k + 1, .undef, _, _, _ => ⟨true, rfl⟩
  | k + 1, .insn x, hl, _, hk => by
    have hx := hk x rfl
    rw [isNonptr]
    split
    · exact ⟨_, rfl⟩
    · split
      · rename_i hop
        obtain ⟨v, w, e⟩ := h2 x hl hop
        rw [e]
        dsimp only
        have hsub : ∀ u ∈ [v, w], ∃ t, isNonptr f k u = .ok t := by
          intro u hu
          have hu' : u ∈ (f.insn x).vals := by rw [e]; exact hu
          refine isNonptr_ok ht h2 hr k u ?_ (by omega) (fun y ey => ?_)
          · cases u with
            | insn y => exact ht.closed x y hl (refs_pos.2 (by unfold operands; simp [hu']))
            | _ => trivial
          · have := hr x y hl hop (by rw [← ey]; exact hu')
            omega
        obtain ⟨t1, e1⟩ := hsub v (by simp)
        obtain ⟨t2, e2⟩ := hsub w (by simp)
        rw [e1]
        cases t1
        · exact ⟨_, rfl⟩
        · exact ⟨_, e2⟩
      · exact ⟨_, rfl⟩

theorem isNonptr_congr {f g : Fn} (ht : Tidy f) (h : ∀ x, Live f x → (g.insn x).op = (f.insn x).op ∧ (g.insn x).vals = (f.insn x).vals) :
    ∀ (k : Nat) (v : Val), LiveVal f v → isNonptr g k v = isNonptr f k v
  | 0, _, _ => rfl
  | k + 1, .const .., _ => rfl
  | k + 1, .undef, _ => rfl
  | k + 1, .insn x, hl => by
    have hx := h x hl
    rw [isNonptr, isNonptr, hx.1, hx.2]
    have hsub : ∀ u ∈ (f.insn x).vals, isNonptr g k u = isNonptr f k u := by
      intro u hu
      refine isNonptr_congr ht h k u ?_
      cases u with
      | insn y => exact ht.closed x y hl (refs_pos.2 (by unfold operands; simp [hu]))
      | _ => trivial
    split
    · rfl
    · split
      · split
        · rename_i v w e
          rw [hsub v (by rw [e]; simp), hsub w (by rw [e]; simp)]
        · rfl
      · rfl

theorem Scalar.congr {f g : Fn} (h : g.insn = f.insn) {v : Val} (hs : Scalar f v) : Scalar g v := by
  induction hs with
  | const => exact .const ..
  | undef => exact .undef
  | load h1 => exact .load (by rw [h]; exact h1)
  | arith h1 h2 _ _ i1 i2 => exact .arith (by rw [h]; exact h1) (by rw [h]; exact h2) i1 i2

/-! ## Changing one instruction -/

/-- `i` in place of the instruction `x`. -/
structure Patch (g : Fn) (x : Nat) (i : Insn) (g' : Fn) : Prop where
  insn : g'.insn = upd g.insn x i
  next : g'.next = g.next
  parent : g'.parent = g.parent
  body : g'.body = g.body
  preds : g'.preds = g.preds
  succs : g'.succs = g.succs
  allBbs : g'.allBbs = g.allBbs
  entry : g'.entry = g.entry
  sp : g'.sp = g.sp
  args : g'.args = g.args

theorem Patch.patched {g g' : Fn} {x : Nat} {i : Insn} (P : Patch g x i g') : Patched g x g' :=
  ⟨fun z hz => by rw [P.insn, upd_ne _ _ hz], P.next, P.parent, P.body, P.allBbs, P.sp, P.args⟩

theorem patch_callArg (g : Fn) (x : Nat) (v : Val) (h : (g.insn x).vals.length < 5) :
    ∃ g', addCallArg g x v = .ok g' ∧ Patch g x { g.insn x with vals := (g.insn x).vals ++ [v] } g' := by
  unfold addCallArg
  rw [if_neg (by omega)]
  have s := addUser_same { g with insn := upd g.insn x { g.insn x with vals := (g.insn x).vals ++ [v] } } v x
  exact ⟨_, rfl, s.insn, s.next, s.parent, s.body, s.preds, s.succs, s.allBbs, s.entry, s.sp, s.args⟩

theorem patch_change (g : Fn) (x : Nat) (v : Val) (h : raw (g.insn x).op = true) :
    ∃ g', changeValue g x .addr v = .ok g' ∧ Patch g x { g.insn x with addr := v } g' := by
  unfold changeValue
  simp only [getPtr, h, if_true]
  have h0 := removeUser_same g (g.insn x).addr x
  have s := addUser_same { removeUser g (g.insn x).addr x with
    insn := upd (removeUser g (g.insn x).addr x).insn x (setPtr ((removeUser g (g.insn x).addr x).insn x) v .addr) } v x
  refine ⟨_, rfl, ?_, s.next.trans h0.next, s.parent.trans h0.parent, s.body.trans h0.body, s.preds.trans h0.preds, s.succs.trans h0.succs,
    s.allBbs.trans h0.allBbs, s.entry.trans h0.entry, s.sp.trans h0.sp, s.args.trans h0.args⟩
  rw [s.insn, h0.insn]
  rfl

theorem patch_clear (g : Fn) (x : Nat) : Patch g x { g.insn x with addrOff := 0 } (clearOff g x) :=
  ⟨rfl, rfl, rfl, rfl, rfl, rfl, rfl, rfl, rfl, rfl⟩

theorem shape_patch {g g' : Fn} {x : Nat} {i : Insn} (hs : Shape g) (P : Patch g x i g') (hop : i.op = (g.insn x).op) (h1 : i.bb1 = (g.insn x).bb1)
    (h2 : i.bb2 = (g.insn x).bb2) (hphi : i.phi = (g.insn x).phi) (hi : Live g x → ∀ y, .insn y ∈ operands i → Live g y) : Shape g' := by
  have ho : ∀ z, (g'.insn z).op = (g.insn z).op ∧ (g'.insn z).bb1 = (g.insn z).bb1 ∧ (g'.insn z).bb2 = (g.insn z).bb2 ∧
      (g'.insn z).phi = (g.insn z).phi := by
    intro z
    rw [P.insn]
    by_cases e : z = x
    · rw [e, upd_same]; exact ⟨hop, h1, h2, hphi⟩
    · rw [upd_ne _ _ e]; exact ⟨rfl, rfl, rfl, rfl⟩
  refine ⟨P.patched.tidy hs.tidy (fun hx y hy => hi hx y ?_), ⟨?_, ?_, ?_⟩, ?_, by rw [P.entry, P.allBbs]; exact hs.entry, ?_, ?_, ?_⟩
  · rw [P.insn, upd_same] at hy; exact refs_pos.1 hy
  · rw [P.allBbs, P.succs, P.preds]; exact hs.graph.sym
  · rw [P.allBbs, P.succs]; exact hs.graph.succs
  · rw [P.allBbs, P.preds]; exact hs.graph.preds
  · intro c hc z hz
    rw [P.allBbs] at hc
    rw [P.body] at hz
    rw [P.succs, (ho z).1, (ho z).2.1, (ho z).2.2.1]
    exact hs.wired c hc z hz
  · intro c hc z hz
    rw [P.allBbs] at hc
    unfold codeOf at hz
    rw [P.body, dropWhile_congr (q := fun x => (g.insn x).op == .phi) (fun y _ => by rw [(ho y).1])] at hz
    rw [(ho z).1]
    exact hs.phis c hc z hz
  · intro c hc l z r hl hz
    rw [P.allBbs] at hc
    rw [P.body] at hl
    rw [(ho z).1] at hz
    exact hs.last c hc l z r hl hz
  · intro c hc z hz hp o ho'
    rw [P.allBbs] at hc ⊢
    rw [P.body] at hz
    rw [(ho z).1] at hp
    rw [(ho z).2.2.2] at ho'
    exact hs.labels c hc z hz hp o ho'

/-! ## Around an instruction -/

theorem around {g : Fn} (hs : Shape g) {b x : Nat} {A B : List Nat} (hb : b ∈ g.allBbs) (hl : g.body b = A ++ x :: B) (hx : (g.insn x).op ≠ .phi) :
    (∀ y ∈ x :: B, (g.insn y).op ≠ .phi) ∧ ∀ y ∈ A, ends (g.insn y).op = false := by
  constructor
  · intro y hy
    refine hs.phis b hb y ?_
    unfold codeOf
    rw [hl, dropWhile_split]
    split
    · rw [List.dropWhile_cons, if_neg (by simpa using hx)]; exact hy
    · exact List.mem_append_right _ hy
  · intro y hy
    cases he : ends (g.insn y).op with
    | false => rfl
    | true =>
      obtain ⟨l, r, rfl⟩ := List.append_of_mem hy
      have := hs.last b hb l y (r ++ x :: B) (by rw [hl]; simp) he
      simp at this

theorem createAt_ok {f : Fn} {i : Insn} {a : Nat} (hp : (f.insn a).op ≠ .phi) (hn : a ≠ f.next) {pos : Pos} (hpos : pos = .front ∨ pos = .back) :
    ∃ g, createAt f i a pos = .ok g := by
  unfold createAt
  have hs := alloc_same f i (f.parent a)
  simp only [placeAt, hs.insn]
  rcases hpos with rfl | rfl
  · simp [upd, hn, hp]
  · simp [upd, hn, hp]

theorem errorBlock_ok {f : Fn} (hg : Graph f) {b s : Nat} {A tl : List Nat} (hb : b ∈ f.allBbs) (hp : f.parent s = b) (hl : f.body b = A ++ s :: tl)
    (hA : s ∉ A) (ht : tl ≠ []) : ∃ n e g, errorBlock f s .back = .ok (n, e, g) ∧ g.next = f.next + 1 ∧ ∀ z, z < f.next → g.insn z = f.insn z := by
  have he := splitEdges_spec hg hb
  have hbn : b ≠ freshBb f := fun e => fresh_not_mem f (by rw [← e]; exact hb)
  have hbody : (splitEdges (newBb f) b (freshBb f)).body b = A ++ s :: tl := by
    rw [he.body, ← hl]; exact upd_ne _ _ hbn
  have hsplit : ∃ f1, split f s .back = .ok f1 := by
    unfold split
    rw [hp]
    dsimp only
    rw [hbody, (cut hA tl).2, (cut hA tl).1, List.tail_cons, if_neg ht]
    exact ⟨_, rfl⟩
  obtain ⟨f1, h1⟩ := hsplit
  have hw := withErr_spec f1
  rcases split_spec hg (by rw [hp]; exact hb) (by rw [hp, hl]; simp) h1 with ⟨h', _⟩ | ⟨_, S⟩
  · cases h'
  · refine ⟨freshBb f, freshBb f1, connect (withErr f1) (f.parent s) (freshBb f1), ?_, ?_, fun z hz => ?_⟩
    · unfold errorBlock
      rw [h1]
      rfl
    · exact hw.2.1.trans (by rw [S.next])
    · change (withErr f1).insn z = _
      rw [hw.1, upd_ne _ _ (by rw [S.next]; omega), S.insn]

/-! ## The invariant -/

/-- `g` is `f` with the instructions `pre x` in front of `x` so far. -/
structure Inv (f g : Fn) (pre : Nat → List Nat) : Prop where
  base : Tidy f
  shape : Shape g
  next : f.next ≤ g.next
  entry : g.entry = f.entry
  sp : g.sp = f.sp
  args : g.args = f.args
  range : ∀ x, ∀ n ∈ pre x, f.next ≤ n
  chain : ∀ b ∈ f.allBbs, Chain g (f.succs b) b ((f.body b).flatMap fun x => pre x ++ [x])
  clean : ∀ x, InBody g x → InBody f x ∨ (g.insn x).op ≠ .ecall
  kind : ∀ x, Live f x → (g.insn x).op = (f.insn x).op ∧ (g.insn x).vals = (f.insn x).vals

theorem Inv.inBody {f g : Fn} {pre : Nat → List Nat} (h : Inv f g pre) {x : Nat} (hx : InBody f x) : InBody g x := by
  obtain ⟨b, hb, hxb⟩ := hx
  exact (h.chain b hb).inBody (List.mem_flatMap.2 ⟨x, hxb, by simp⟩)

theorem Inv.live {f g : Fn} {pre : Nat → List Nat} (h : Inv f g pre) {x : Nat} (hx : Live f x) : Live g x := by
  rcases hx with hx | hx | hx
  · exact .inl (by rw [h.sp]; exact hx)
  · exact .inr (.inl (by rw [h.args]; exact hx))
  · exact .inr (.inr (h.inBody hx))

theorem Inv.init {f : Fn} (hs : Shape f) : Inv f f (fun _ => []) where
  base := hs.tidy
  shape := hs
  next := Nat.le_refl _
  entry := rfl
  sp := rfl
  args := rfl
  range := by simp
  chain b hb := .last hb (by simp) rfl
  clean _ h := .inl h
  kind _ _ := ⟨rfl, rfl⟩

/-- The instructions in front of which the pass inserts. -/
def IsRaw (o : Op) : Prop := o = .loadraw ∨ o = .storeraw

theorem IsRaw.inner {i : Insn} (h : IsRaw i.op) : Inner i := by
  rcases h with h | h <;> exact ⟨by rw [h]; simp, by rw [h]; simp⟩

theorem IsRaw.not_phi {o : Op} (h : IsRaw o) : o ≠ .phi := by rcases h with h | h <;> rw [h] <;> simp

/-- What is inserted. -/
def Simple (o : Op) : Prop := o ≠ .phi ∧ ends o = false ∧ o ≠ .ecall ∧ o ≠ .ja ∧ o.condJmp = false

theorem Inv.front {f g : Fn} {pre : Nat → List Nat} {x : Nat} {i : Insn} (h : Inv f g pre) (hx : InBody f x) (hop : IsRaw (f.insn x).op)
    (hi : ∀ y, .insn y ∈ operands i → Live g y) (hs : Simple i.op) :
    ∃ g', createAt g i x .front = .ok g' ∧ Inv f g' (upd pre x (pre x ++ [g.next])) ∧ g'.insn = upd g.insn g.next i ∧ g'.next = g.next + 1 ∧
      (∀ z, Live g' z ↔ z = g.next ∨ Live g z) ∧ ∃ b A B, b ∈ g'.allBbs ∧ g'.body b = A ++ g.next :: x :: B := by
  have hxl : Live f x := .inr (.inr hx)
  have hxf := h.base.lt x hxl
  have hopg : IsRaw (g.insn x).op := by rw [(h.kind x hxl).1]; exact hop
  obtain ⟨b, hb, hxb⟩ := h.inBody hx
  have hpar := h.shape.tidy.parent b hb x hxb
  obtain ⟨A, B, hl⟩ := List.append_of_mem hxb
  have hnd := h.shape.tidy.nodup b hb
  rw [hl] at hnd
  have hxA : x ∉ A := fun hm => (List.nodup_append.1 hnd).2.2 x hm x (by simp) rfl
  have hxB : x ∉ B := (List.nodup_cons.1 (List.nodup_append.1 hnd).2.1).1
  have hne : x ≠ g.next := by have := h.next; omega
  obtain ⟨g', hc⟩ := createAt_ok (i := i) hopg.not_phi hne (.inl rfl)
  have ha := added_createAt hc (by rw [hpar]; exact hxb)
  have hbd := createAt_front hc (A := A) (B := B) (by rw [hpar]; exact hl) hxA hopg.not_phi hne
  rw [hpar] at ha hbd
  obtain ⟨h1, h2⟩ := around h.shape hb hl hopg.not_phi
  have hsh : Shape g' := shape_added h.shape ha hb hl hbd hi hs.1 h1 h2 (fun e => by rw [hs.2.1] at e; cases e)
    ⟨fun e => absurd e hs.2.2.2.1, fun e => by rw [hs.2.2.2.2] at e; cases e⟩
  have hold : ∀ z, Live g z → g'.insn z = g.insn z := fun z hz => by
    rw [ha.insn, upd_ne _ _ (by have := h.shape.tidy.lt z hz; omega)]
  refine ⟨g', hc, ⟨h.base, hsh, by rw [ha.next]; exact Nat.le_succ_of_le h.next, by rw [ha.entry, h.entry], by rw [ha.sp, h.sp], by rw [ha.args, h.args], ?_, ?_,
    ?_, ?_⟩, ha.insn, ha.next, fun z => ha.live hb, b, A, B, by rw [ha.allBbs]; exact hb, hbd⟩
  · intro z n hn
    by_cases e : z = x
    · subst e
      rw [upd_same] at hn
      rcases List.mem_append.1 hn with h3 | h3
      · exact h.range z n h3
      · rw [List.mem_singleton.1 h3]; exact h.next
    · rw [upd_ne _ _ e] at hn; exact h.range z n hn
  · intro c hcm
    rw [← ins_pre (fun z hm => by have := h.range z x hm; omega)]
    refine (h.chain c hcm).insert h.shape.graph hopg.inner (fun d hd z hz => hold z (.inr (.inr ⟨d, hd, hz⟩))) (fun d hd => ?_) ha.succs ha.preds ha.allBbs
      ha.entry
    by_cases e : d = b
    · rw [e, hbd, hl, ins_at hxA hxB]
    · rw [ha.body d e, ins_out]
      intro hm
      exact e (by rw [← h.shape.tidy.parent d hd x hm, hpar])
  · rintro z ⟨c, hcm, hz⟩
    rw [ha.allBbs] at hcm
    have : z = g.next ∨ InBody g z := by
      by_cases e : c = b
      · subst e
        exact ((ha.bodyB z).1 hz).imp (fun h => h) (fun h => ⟨c, hcm, h⟩)
      · rw [ha.body c e] at hz; exact .inr ⟨c, hcm, hz⟩
    rcases this with h3 | h3
    · rw [h3, ha.insn, upd_same]; exact .inr hs.2.2.1
    · rw [hold z (.inr (.inr h3))]; exact h.clean z h3
  · intro z hz
    rw [hold z (h.live hz)]; exact h.kind z hz

theorem Inv.patch {f g g' : Fn} {pre : Nat → List Nat} {x : Nat} {i : Insn} (h : Inv f g pre) (P : Patch g x i g') (hin : Inner (g.insn x))
    (hop : i.op = (g.insn x).op) (h1 : i.bb1 = (g.insn x).bb1) (h2 : i.bb2 = (g.insn x).bb2) (hphi : i.phi = (g.insn x).phi)
    (hi : ∀ y, .insn y ∈ operands i → Live g y) (hv : Live f x → i.vals = (g.insn x).vals) : Inv f g' pre where
  base := h.base
  shape := shape_patch h.shape P hop h1 h2 hphi (fun _ => hi)
  next := by rw [P.next]; exact h.next
  entry := by rw [P.entry, h.entry]
  sp := by rw [P.sp, h.sp]
  args := by rw [P.args, h.args]
  range := h.range
  chain b hb := (h.chain b hb).patch hin (fun z hz => by rw [P.insn, upd_ne _ _ hz]) P.body P.succs P.preds P.allBbs P.entry
  clean z hz := by
    have hz' : InBody g z := by unfold InBody at hz ⊢; rw [P.allBbs, P.body] at hz; exact hz
    rw [P.insn]
    by_cases e : z = x
    · rw [e, upd_same, hop, ← e]; exact h.clean z hz'
    · rw [upd_ne _ _ e]; exact h.clean z hz'
  kind z hz := by
    rw [P.insn]
    by_cases e : z = x
    · rw [e] at hz ⊢
      rw [upd_same, hop, hv hz]; exact h.kind x hz
    · rw [upd_ne _ _ e]; exact h.kind z hz

theorem Inv.guard {f g : Fn} {pre : Nat → List Nat} {b c x : Nat} {A B : List Nat} (h : Inv f g pre) (hx : InBody f x) (hop : IsRaw (f.insn x).op)
    (hb : b ∈ g.allBbs) (hl : g.body b = A ++ c :: x :: B) (hc : (g.insn c).op ≠ .phi) :
    ∃ n e g1 g', errorBlock g c .back = .ok (n, e, g1) ∧ createAt g1 (nullCheck c n e) c .back = .ok g' ∧
      Inv f g' (upd pre x (pre x ++ [g.next + 1])) ∧ g'.next = g.next + 2 ∧ (∀ z, z < g.next → g'.insn z = g.insn z) ∧
      g'.insn (g.next + 1) = nullCheck c n e := by
  have hxl : Live f x := .inr (.inr hx)
  have hxf := h.base.lt x hxl
  have hopg : IsRaw (g.insn x).op := by rw [(h.kind x hxl).1]; exact hop
  have hcb : c ∈ g.body b := by rw [hl]; simp
  have hcl : Live g c := .inr (.inr ⟨b, hb, hcb⟩)
  have hpar := h.shape.tidy.parent b hb c hcb
  have hnd := h.shape.tidy.nodup b hb
  rw [hl] at hnd
  have hcA : c ∉ A := fun hm => (List.nodup_append.1 hnd).2.2 c hm c (by simp) rfl
  obtain ⟨n, e, g1, he, hn1, hi1⟩ := errorBlock_ok h.shape.graph hb hpar hl hcA (by simp)
  have hclt := h.shape.tidy.lt c hcl
  obtain ⟨g', hg'⟩ := createAt_ok (f := g1) (i := nullCheck c n e) (a := c) (by rw [hi1 c hclt]; exact hc) (by omega) (.inr rfl)
  have G := errJump_spec h.shape hb hl hc he hg' rfl rfl rfl
  have hil : ∀ y, 0 < refs (nullCheck c n e) y → Live g y := by
    intro y hy
    have := refs_pos.1 hy
    simp [operands, nullCheck, raw] at this
    rw [this]; exact hcl
  refine ⟨n, e, g1, g', he, hg', ⟨h.base, G.shape h.shape hil, by rw [G.next]; have := h.next; omega, by rw [G.entry, h.entry], by rw [G.sp, h.sp],
    by rw [G.args, h.args], ?_, ?_, ?_, ?_⟩, G.next, fun z hz => G.insn_old hz, G.insn_j⟩
  · intro z m hm
    by_cases e : z = x
    · subst e
      rw [upd_same] at hm
      rcases List.mem_append.1 hm with h3 | h3
      · exact h.range z m h3
      · rw [List.mem_singleton.1 h3]; have := h.next; omega
    · rw [upd_ne _ _ e] at hm; exact h.range z m hm
  · intro d hd
    rw [← ins_pre (fun z hm => by have := h.range z x hm; omega)]
    exact (h.chain d hd).guard h.shape hopg.inner G
  · rintro z ⟨d, hd, hz⟩
    by_cases e1 : z = g.next
    · rw [e1, G.insn_t]; exact .inr (by simp [mkThrow])
    · by_cases e2 : z = g.next + 1
      · rw [e2, G.insn_j]; exact .inr (by simp [nullCheck])
      · have hzb : InBody g z := by
          rcases G.mem_all.1 hd with h3 | h3 | h3
          · rw [G.body d h3] at hz
            split at hz
            · rename_i e3
              rcases List.mem_append.1 hz with h4 | h4
              · exact ⟨d, h3, by rw [e3, G.list]; exact List.mem_append_left _ h4⟩
              · exact absurd (List.mem_singleton.1 h4) e2
            · exact ⟨d, h3, hz⟩
          · rw [h3, G.bodyN] at hz
            exact ⟨b, hb, by rw [G.list]; exact List.mem_append_right _ hz⟩
          · rw [h3, G.bodyE] at hz
            exact absurd (List.mem_singleton.1 hz) e1
        have := h.shape.tidy.lt z (.inr (.inr hzb))
        rw [G.insn_old this]
        exact h.clean z hzb
  · intro z hz
    rw [G.insn_old (h.shape.tidy.lt z (h.live hz))]
    exact h.kind z hz

/-! ## One load -/

theorem upd_upd {α : Type} (p : Nat → α) (x : Nat) (v w : α) : upd (upd p x v) x w = upd p x w := by
  funext z
  by_cases e : z = x
  · rw [e, upd_same, upd_same]
  · rw [upd_ne _ _ e, upd_ne _ _ e, upd_ne _ _ e]

theorem upd_self {α : Type} (p : Nat → α) (x : Nat) : upd p x (p x) = p := by
  funext z
  by_cases e : z = x
  · rw [e, upd_same]
  · rw [upd_ne _ _ e]

theorem operands_addr {i : Insn} (h : IsRaw i.op) : i.addr ∈ operands i := by
  unfold operands raw
  rcases h with h | h <;> simp [h]

theorem operands_raw {i : Insn} (h : IsRaw i.op) {v : Val} : v ∈ operands i ↔ v ∈ i.vals ∨ v = i.addr := by
  unfold operands raw
  rcases h with h | h <;> simp [h]

theorem addr_live {f : Fn} (ht : Tidy f) {x : Nat} (hx : Live f x) (hop : IsRaw (f.insn x).op) : LiveVal f (f.insn x).addr := by
  have h := operands_addr hop
  cases hv : (f.insn x).addr with
  | insn y => rw [hv] at h; exact ht.closed x y hx (refs_pos.2 h)
  | _ => trivial

theorem Inv.liveVal {f g : Fn} {pre : Nat → List Nat} (h : Inv f g pre) {v : Val} (hv : LiveVal f v) : LiveVal g v := by
  cases v with
  | insn y => exact h.live hv
  | _ => trivial

theorem addOff_step {f g : Fn} {pre : Nat → List Nat} {x : Nat} (h : Inv f g pre) (hx : InBody f x) (hop : IsRaw (f.insn x).op)
    (hgx : g.insn x = f.insn x) :
    ∃ v g' ks, addOff g x (g.insn x).addr = .ok (v, g') ∧ Inv f g' (upd pre x (pre x ++ ks)) ∧ g.next ≤ g'.next ∧
      (∀ z, z < g.next → g'.insn z = g.insn z) ∧ (∀ n ∈ ks, n < g'.next) ∧ LiveVal g' v ∧
      ((f.insn x).addrOff = 0 ∧ ks = [] ∧ v = (f.insn x).addr ∨ (f.insn x).addrOff ≠ 0 ∧ ∃ a, ks = [a] ∧ v = .insn a ∧
        g'.insn a = { op := .add, vals := [(f.insn x).addr, .const .plain (((f.insn x).addrOff.signExtend 32).signExtend 64) .w32 .none], aluOp := .w64 }) := by
  have hxl : Live f x := .inr (.inr hx)
  have hav : LiveVal g (f.insn x).addr := h.liveVal (addr_live h.base hxl hop)
  unfold addOff
  rw [hgx]
  by_cases h0 : (f.insn x).addrOff = 0
  · rw [if_pos h0]
    refine ⟨_, g, [], rfl, ?_, Nat.le_refl _, fun _ _ => rfl, by simp, hav, .inl ⟨h0, rfl, rfl⟩⟩
    rw [List.append_nil, upd_self]; exact h
  · rw [if_neg h0]
    obtain ⟨g', hc, hI, hi, hn, hl, _⟩ := h.front (i := mkBin .add .w64 (f.insn x).addr (const32 ((f.insn x).addrOff.signExtend 32))) hx hop (by
      intro y hy
      simp [operands, mkBin, raw, const32] at hy
      rw [← hy] at hav
      exact hav) ⟨by simp [mkBin], rfl, by simp [mkBin], by simp [mkBin], rfl⟩
    rw [hc]
    refine ⟨.insn g.next, g', [g.next], rfl, hI, by omega, fun z hz => by rw [hi, upd_ne _ _ (by omega)], by simp [hn], (hl _).2 (.inl rfl),
      .inr ⟨h0, g.next, rfl, rfl, ?_⟩⟩
    rw [hi, upd_same]
    rfl

theorem lookup_step {f g : Fn} {pre : Nat → List Nat} {x m : Nat} {v : Val} (h : Inv f g pre) (hx : InBody f x) (hop : IsRaw (f.insn x).op)
    (hm : Live f m) (hv : LiveVal g v) :
    ∃ g', lookup m g x v = .ok (g.next + 3, g') ∧ Inv f g' (upd pre x (pre x ++ [g.next, g.next + 1, g.next + 2, g.next + 3])) ∧ g'.next = g.next + 4 ∧
      (∀ z, z < g.next → g'.insn z = g.insn z) ∧
      g'.insn g.next = { op := .allocarray, vrType := .t64, aux := 1 } ∧
      g'.insn (g.next + 1) = { op := .storeraw, vrType := .t64, addr := .insn g.next, addrOff := 0, vals := [v] } ∧
      g'.insn (g.next + 2) = { op := .getelemptr, vals := [.const .plain 0 .w32 .none, .insn g.next] } ∧
      g'.insn (g.next + 3) = { op := .call, aux := 1, vals := [.insn m, .insn (g.next + 2)] } ∧
      Live g' (g.next + 3) ∧ ∃ b A B, b ∈ g'.allBbs ∧ g'.body b = A ++ (g.next + 3) :: x :: B := by
  obtain ⟨g1, hc1, hI1, hi1, hn1, hl1, _⟩ := h.front (i := mkAllocarray .t64 1) hx hop (by simp [operands, mkAllocarray, raw])
    ⟨by simp [mkAllocarray], rfl, by simp [mkAllocarray], by simp [mkAllocarray], rfl⟩
  obtain ⟨g2, hc2, hI2, hi2, hn2, hl2, _⟩ := hI1.front (i := mkStoreraw .t64 (.insn g.next) 0 .plain v) hx hop (by
    intro y hy
    rw [operands_raw (.inr rfl)] at hy
    rw [hl1]
    rcases hy with hy | hy
    · rw [← List.mem_singleton.1 hy] at hv; exact .inr hv
    · cases hy; exact .inl rfl) ⟨by simp [mkStoreraw], rfl, by simp [mkStoreraw], by simp [mkStoreraw], rfl⟩
  obtain ⟨g3, hc3, hI3, hi3, hn3, hl3, _⟩ := hI2.front (i := mkGetelemptr g.next (const32 0)) hx hop (by
    intro y hy
    simp [operands, mkGetelemptr, raw, const32] at hy
    rw [hl2, hl1, hy]
    exact .inr (.inl rfl)) ⟨by simp [mkGetelemptr], rfl, by simp [mkGetelemptr], by simp [mkGetelemptr], rfl⟩
  obtain ⟨g4, hc4, hI4, hi4, hn4, hl4, b, A, B, hb, hbd⟩ := hI3.front (i := mkCall 1) hx hop (by simp [operands, mkCall, raw])
    ⟨by simp [mkCall], rfl, by simp [mkCall], by simp [mkCall], rfl⟩
  have e1 : g1.next = g.next + 1 := hn1
  have e2 : g2.next = g.next + 2 := by omega
  have e3 : g3.next = g.next + 3 := by omega
  have e4 : g4.next = g.next + 4 := by omega
  rw [e1] at hi2 hl2 hI2
  rw [e2] at hi3 hl3 hI3
  rw [e3] at hi4 hl4 hI4 hbd
  have hcf : ¬ Live f (g.next + 3) := fun hl => by have := h.base.lt _ hl; have := h.next; omega
  have i4 : g4.insn (g.next + 3) = mkCall 1 := by rw [hi4, upd_same]
  obtain ⟨g5, hc5, P5⟩ := patch_callArg g4 (g.next + 3) (.insn m) (by rw [i4]; simp [mkCall])
  have hI5 := hI4.patch P5 (by rw [i4]; exact ⟨by simp [mkCall], by simp [mkCall]⟩) rfl rfl rfl rfl (by
    intro y hy
    rw [i4] at hy
    simp [operands, mkCall, raw] at hy
    rw [hy]; exact hI4.live hm) (fun hl => absurd hl hcf)
  have i5 : g5.insn (g.next + 3) = { mkCall 1 with vals := [.insn m] } := by rw [P5.insn, upd_same, i4]; rfl
  obtain ⟨g6, hc6, P6⟩ := patch_callArg g5 (g.next + 3) (.insn (g.next + 2)) (by rw [i5]; simp)
  have hl5 : ∀ z, Live g5 z ↔ Live g4 z := fun z => P5.patched.live
  have hl6 : ∀ z, Live g6 z ↔ Live g5 z := fun z => P6.patched.live
  have hI6 := hI5.patch P6 (by rw [i5]; exact ⟨by simp [mkCall], by simp [mkCall]⟩) rfl rfl rfl rfl (by
    intro y hy
    rw [i5] at hy
    simp [operands, mkCall, raw] at hy
    rw [hl5, hl4, hl3]
    rcases hy with hy | hy
    · rw [hy, ← hl3, ← hl4]; exact hI4.live hm
    · rw [hy]; exact .inr (.inl rfl)) (fun hl => absurd hl hcf)
  have i6 : g6.insn (g.next + 3) = { op := .call, aux := 1, vals := [.insn m, .insn (g.next + 2)] } := by rw [P6.insn, upd_same, i5]; rfl
  have hin : ∀ z, z ≠ g.next + 3 → g6.insn z = g3.insn z := fun z hz => by rw [P6.insn, upd_ne _ _ hz, P5.insn, upd_ne _ _ hz, hi4, upd_ne _ _ hz]
  refine ⟨g6, ?_, ?_, by rw [P6.next, P5.next, e4], fun z hz => ?_, ?_, ?_, ?_, i6, ?_, b, A, B, by rw [P6.allBbs, P5.allBbs]; exact hb,
    by rw [P6.body, P5.body]; exact hbd⟩
  · unfold lookup
    rw [hc1, Out.ok_bind, hc2, Out.ok_bind, hc3, Out.ok_bind, hc4, Out.ok_bind, e3, e2, hc5, Out.ok_bind, hc6, Out.ok_bind]
  · simp only [upd_upd, upd_same, List.append_assoc, List.cons_append, List.nil_append, e1, e2] at hI6
    exact hI6
  · rw [hin z (by omega), hi3, upd_ne _ _ (by omega), hi2, upd_ne _ _ (by omega), hi1, upd_ne _ _ (by omega)]
  · rw [hin _ (by omega), hi3, upd_ne _ _ (by omega), hi2, upd_ne _ _ (by omega), hi1, upd_same]; rfl
  · rw [hin _ (by omega), hi3, upd_ne _ _ (by omega), hi2, upd_same]; rfl
  · rw [hin _ (by omega), hi3, upd_same]; rfl
  · rw [hl6, hl5, hl4]; exact .inl rfl

theorem load_step {f g : Fn} {pre : Nat → List Nat} {x m : Nat} (h : Inv f g pre) (hx : InBody f x) (hop : (f.insn x).op = .loadraw)
    (hm : Live f m) (hgx : g.insn x = f.insn x) :
    ∃ g' ns c, heapLoad m g x = .ok g' ∧ Inv f g' (upd pre x (pre x ++ ns)) ∧ g.next ≤ g'.next ∧
      (∀ z, z < g.next → z ≠ x → g'.insn z = g.insn z) ∧ (∀ n ∈ ns, n < g'.next) ∧ LoadDone f m g' x ns c := by
  have hxl : Live f x := .inr (.inr hx)
  have hxf := h.base.lt x hxl
  have hfg := h.next
  have hop' : IsRaw (f.insn x).op := .inl hop
  obtain ⟨v, g1, ks, ha, hI1, hn1, hi1, hks, hv, hkey⟩ := addOff_step h hx hop' hgx
  obtain ⟨g2, hc2, hI2, hn2, hi2, ia, is, ip, ic, hlc, b, A, B, hb, hbd⟩ := lookup_step hI1 hx hop' hm hv
  have ix2 : g2.insn x = f.insn x := by rw [hi2 x (by omega), hi1 x (by omega), hgx]
  obtain ⟨g3, hc3, P3⟩ := patch_change g2 x (.insn (g1.next + 3)) (by rw [ix2, hop]; rfl)
  have hl3 : ∀ z, Live g3 z ↔ Live g2 z := fun z => P3.patched.live
  have hlv : ∀ y, .insn y ∈ (f.insn x).vals → Live f y := fun y hy => h.base.closed x y hxl (refs_pos.2 ((operands_raw hop').2 (.inl hy)))
  have hI3 := hI2.patch P3 (by rw [ix2]; exact hop'.inner) rfl rfl rfl rfl (by
    intro y hy
    rw [ix2] at hy
    rcases (operands_raw (i := { f.insn x with addr := .insn (g1.next + 3) }) hop').1 hy with h1 | h1
    · exact hI2.live (hlv y h1)
    · cases h1; exact hlc) (fun _ => rfl)
  have ix3 : g3.insn x = { f.insn x with addr := .insn (g1.next + 3) } := by rw [P3.insn, upd_same, ix2]
  have P4 := patch_clear g3 x
  have hI4 := hI3.patch P4 (by rw [ix3]; exact hop'.inner) rfl rfl rfl rfl (by
    intro y hy
    rw [ix3] at hy
    rw [hl3]
    rcases (operands_raw (i := { f.insn x with addr := .insn (g1.next + 3), addrOff := 0 }) hop').1 hy with h1 | h1
    · exact hI2.live (hlv y h1)
    · cases h1; exact hlc) (fun _ => rfl)
  have ix4 : (clearOff g3 x).insn x = { f.insn x with addr := .insn (g1.next + 3), addrOff := 0 } := by rw [P4.insn, upd_same, ix3]
  have i4 : ∀ z, z ≠ x → (clearOff g3 x).insn z = g2.insn z := fun z hz => by rw [P4.insn, upd_ne _ _ hz, P3.insn, upd_ne _ _ hz]
  have hn4 : (clearOff g3 x).next = g1.next + 4 := by rw [P4.next, P3.next, hn2]
  obtain ⟨n, e, g5, g6, hc5, hc6, hI6, hn6, hi6, ij⟩ := hI4.guard (b := b) (c := g1.next + 3) (A := A) (B := B) hx hop'
    (by rw [P4.allBbs, P3.allBbs]; exact hb) (by rw [P4.body, P3.body]; exact hbd) (by rw [i4 _ (by omega), ic]; simp)
  rw [hn4] at hI6 hn6 hi6 ij
  have hlow : ∀ z, z < g1.next + 4 → z ≠ x → g6.insn z = g2.insn z := fun z h1 h2 => by rw [hi6 z h1, i4 z h2]
  refine ⟨g6, ks ++ [g1.next, g1.next + 1, g1.next + 2, g1.next + 3, g1.next + 5], g1.next + 3, ?_, ?_, by omega, fun z hz hzx => ?_, ?_,
    ks, v, g1.next, g1.next + 1, g1.next + 2, g1.next + 5, n, e, rfl, ?_, ?_, ?_, ?_, ?_, ij, ?_⟩
  · unfold heapLoad
    rw [ha, Out.ok_bind]
    dsimp only
    rw [hc2, Out.ok_bind]
    dsimp only
    rw [hc3, Out.ok_bind, hc5, Out.ok_bind]
    exact hc6
  · simp only [upd_upd, upd_same, List.append_assoc, List.cons_append, List.nil_append] at hI6
    exact hI6
  · rw [hlow z (by omega) hzx, hi2 z (by omega), hi1 z hz]
  · intro n hn
    rcases List.mem_append.1 hn with h1 | h1
    · have := hks n h1; omega
    · simp at h1; omega
  · rcases hkey with h1 | ⟨h1, a, rfl, h2, h3⟩
    · exact .inl h1
    · have hag : a < g1.next := hks a (by simp)
      have haf : f.next ≤ a := hI1.range x a (by rw [upd_same]; simp)
      exact .inr ⟨h1, a, rfl, h2, by rw [hlow a (by omega) (by omega), hi2 a hag, h3]⟩
  · rw [hlow _ (by omega) (by omega), ia]
  · rw [hlow _ (by omega) (by omega), is]
  · rw [hlow _ (by omega) (by omega), ip]
  · rw [hlow _ (by omega) (by omega), ic]
  · rw [hi6 x (by omega), ix4]

/-! ## One store -/

theorem store_step {f g : Fn} {pre : Nat → List Nat} {x m : Nat} (h : Inv f g pre) (hx : InBody f x) (hop : (f.insn x).op = .storeraw)
    (hm : Live f m) (hgx : g.insn x = f.insn x) :
    ∃ g' ns, heapStore m g x = .ok g' ∧ Inv f g' (upd pre x (pre x ++ ns)) ∧ g.next ≤ g'.next ∧
      (∀ z, z < g.next → z ≠ x → g'.insn z = g.insn z) ∧ (∀ n ∈ ns, n < g'.next) ∧ StoreDone f m g' x ns := by
  have hxl : Live f x := .inr (.inr hx)
  have hxf := h.base.lt x hxl
  have hfg := h.next
  have hop' : IsRaw (f.insn x).op := .inr hop
  have hav : LiveVal g (f.insn x).addr := h.liveVal (addr_live h.base hxl hop')
  obtain ⟨g1, hc1, hI1, hi1, hn1, hl1, _⟩ := h.front (i := mkBin .add .w64 (.insn m) (f.insn x).addr) hx hop' (by
    intro y hy
    simp [operands, mkBin, raw] at hy
    rcases hy with hy | hy
    · rw [hy]; exact h.live hm
    · rw [← hy] at hav; exact hav) ⟨by simp [mkBin], rfl, by simp [mkBin], by simp [mkBin], rfl⟩
  have ix1 : g1.insn x = f.insn x := by rw [hi1, upd_ne _ _ (by omega), hgx]
  obtain ⟨g2, hc2, P2⟩ := patch_change g1 x (.insn g.next) (by rw [ix1, hop]; rfl)
  have hI2 := hI1.patch P2 (by rw [ix1]; exact hop'.inner) rfl rfl rfl rfl (by
    intro y hy
    rw [ix1] at hy
    rcases (operands_raw (i := { f.insn x with addr := .insn g.next }) hop').1 hy with h1 | h1
    · exact hI1.live (h.base.closed x y hxl (refs_pos.2 ((operands_raw hop').2 (.inl h1))))
    · cases h1; rw [hl1]; exact .inl rfl) (fun _ => rfl)
  refine ⟨g2, [g.next], ?_, hI2, by rw [P2.next]; omega, fun z hz hzx => ?_, by rw [P2.next, hn1]; simp, g.next, rfl, ?_, ?_⟩
  · unfold heapStore
    rw [hgx, hc1, Out.ok_bind]
    exact hc2
  · rw [P2.insn, upd_ne _ _ hzx, hi1, upd_ne _ _ (by omega)]
  · rw [P2.insn, upd_ne _ _ (by omega), hi1, upd_same]; rfl
  · rw [P2.insn, upd_same, ix1]

end Verif.Ecall
