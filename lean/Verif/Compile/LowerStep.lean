import Verif.Compile.FrontStep
/-!
# Lowering and arrays
-/
namespace Verif.Compile
open Verif Verif.IR Verif.Edit Verif.Cg
open Verif.RemPhi (All2)
open Verif.Loc (phisOf_append phisOf_phi places hasResult)
open Verif.Lower (Ready Neat)
open Verif.Norm (VrPos Reg Op)

/-! ## Arrays -/

theorem arrSize_8 {i : Insn} (h0 : 0 < arrBytes i) (h1 : arrBytes i + 7 < 2 ^ 32) : ∃ n : BitVec 32, arrSize i = .ok n ∧ 8 ≤ n.toNat := by
  unfold arrSize arrBytes at *
  have key : ∀ m : BitVec 32, m.toNat = elemBytes i.vrType → ∃ n : BitVec 32, (if i.aux * m = 0 then (.err : Out (BitVec 32)) else .ok ((i.aux * m + 7) &&& ~~~7)) = .ok n ∧
      8 ≤ n.toNat := by
    intro m hm
    have e1 : (i.aux * m).toNat = i.aux.toNat * elemBytes i.vrType := by
      rw [BitVec.toNat_mul, hm, Nat.mod_eq_of_lt (by omega)]
    rw [if_neg (fun h => by rw [h] at e1; simp at e1; omega)]
    refine ⟨_, rfl, ?_⟩
    rw [← e1] at h0 h1
    generalize i.aux * m = a at *
    rw [Stack.round8 a (by omega)]
    omega
  cases e : i.vrType <;> rw [e] at key h0 <;> simp only [Stack.sizeOf, Out.ok_bind] <;> first | exact key _ rfl | (simp [elemBytes] at h0)

theorem arrays_pos {R : List Nat} {rg : Nat → Nat} : ∀ (xs : List Nat) (s s' : Cg) (off off' : Int), PosInv s R rg off → off ≤ 0 →
    (∀ x ∈ xs, InBody s.f x ∧ ((s.f.insn x).op = .allocarray → (s.pos x).allocated = false ∧ 0 < arrBytes (s.f.insn x) ∧ arrBytes (s.f.insn x) + 7 < 2 ^ 32)) → xs.Nodup →
    spillArrays xs s off = .ok (s', off') → PosInv s' R rg off'
  | [], s, s', off, off', h, _, _, _, e => by cases e; exact h
  | x :: xs, s, s', off, off', h, hle, hx, hn, e => by
    obtain ⟨hxn, hn⟩ := List.nodup_cons.1 hn
    unfold spillArrays at e
    by_cases ho : (s.f.insn x).op = .allocarray
    · obtain ⟨hin, hfit⟩ := hx x List.mem_cons_self
      obtain ⟨hfree, h2, h3⟩ := hfit ho
      obtain ⟨n, e1, e2⟩ := arrSize_8 h2 h3
      rw [if_pos ho, e1, Out.ok_bind] at e
      have hns : newSpill off n.toNat = off - n.toNat := rfl
      have hz := h.free x hfree
      refine arrays_pos xs ⟨s.f, upd s.pos x { s.pos x with allocated := true, spilled := newSpill off n.toNat }⟩ s' _ off' ?_ (by omega) (fun y hy => ⟨(hx y (List.mem_cons_of_mem _ hy)).1, fun hyo => ?_⟩) hn e
      · refine ⟨fun i hi => ?_, ?_, fun z hz => ?_, fun z h1 h2 h3 => ?_, fun z hz => ?_, fun z hz => ?_, fun z w hzw hz hw => ?_⟩
        · dsimp only
          rw [upd_ne]
          · exact h.rg i hi
          · intro e3; rw [← e3, h.rg i hi] at hfree; cases hfree
        · dsimp only
          rw [upd_ne]
          · exact h.sp
          · intro e3; rw [← e3, h.sp] at hfree; cases hfree
        · dsimp only at hz ⊢
          by_cases ez : z = x
          · rw [ez, upd_same] at hz; cases hz
          · rw [upd_ne _ _ ez] at hz ⊢; exact h.free z hz
        · dsimp only at h1 h2 h3
          by_cases ez : z = x
          · rw [ez, upd_same] at h2; dsimp only at h2; omega
          · rw [upd_ne _ _ ez] at h1 h2 h3; exact h.r10 z h1 h2 h3
        · dsimp only at hz ⊢
          by_cases ez : z = x
          · rw [ez, upd_same]; dsimp only; omega
          · rw [upd_ne _ _ ez] at hz ⊢; have := h.neg z hz; omega
        · dsimp only at hz ⊢
          by_cases ez : z = x
          · rw [ez]; exact ⟨hin, .inr ho⟩
          · rw [upd_ne _ _ ez] at hz; exact h.stack z hz
        · dsimp only at hz hw ⊢
          by_cases ez : z = x
          · have ew : w ≠ x := fun e => hzw (by rw [ez, e])
            rw [upd_ne _ _ ew] at hw ⊢
            rw [ez, upd_same]
            dsimp only
            have := h.neg w hw; omega
          · rw [upd_ne _ _ ez] at hz ⊢
            by_cases ew : w = x
            · rw [ew, upd_same]
              dsimp only
              have := h.neg z hz; omega
            · rw [upd_ne _ _ ew] at hw ⊢; exact h.apart z w hzw hz hw
      · dsimp only
        rw [upd_ne _ _ (fun h : y = x => hxn (by rw [← h]; exact hy))]
        exact (hx y (List.mem_cons_of_mem _ hy)).2 hyo
    · rw [if_neg ho] at e
      exact arrays_pos xs s s' off off' h hle (fun y hy => hx y (List.mem_cons_of_mem _ hy)) hn e

theorem arrays_holds {s s' : Cg} {R : List Nat} {rg : Nat → Nat} {d : BitVec 16} {off off' : Int} (hr : SpillReady s R off) (hs : Shape s.f R rg d) (hp : PosInv s R rg off)
    (he : Early s.f R (fun a => (s.pos a).allocated = false)) (hg : ∀ i, i < 10 → rg i ∈ s.f.args) (hv : VarsOn s R) (hfx : Fixed s.f rg) (hR : R.Nodup) (ha : ArraysFit s R)
    (e : spillArray R s off = .ok (s', off')) : Holds s' R rg d off' := by
  obtain ⟨s1, off1, e1, hf, hr1, harr, hpos, -⟩ := C54_arrays hr hR ha
  rw [e] at e1
  cases e1
  have hp' := arrays_pos (R := R) (rg := rg) (R.flatMap s.f.body) s s' off off' hp hr.le (fun x hx => by
    obtain ⟨b, hb, hx⟩ := List.mem_flatMap.1 hx
    exact ⟨⟨b, hr.sub b hb, hx⟩, ha b hb x hx⟩) (nodup_bodies hr.tidy hr.sub hR) e
  refine ⟨hr1, by rw [hf]; exact hs, hp', fun x ⟨b, hb, hx⟩ hop => ?_, fun a ha' hop hfree => ?_, by rw [hf]; exact hg, fun x hx hop hal => ?_, by rw [hf]; exact hfx⟩
  · rw [hf] at hx hop
    obtain ⟨⟨h1, h2, h3⟩, -⟩ := harr b hb x hx hop
    have := (ha b hb x hx hop).2.1
    have := hr.le
    rw [hf] at h3
    exact ⟨h1, by omega⟩
  · rw [hf] at ha' hop ⊢
    refine he a ha' hop ?_
    show (s.pos a).allocated = false
    rw [← hpos a (by rw [hop]; simp)]
    exact hfree
  · rw [hf] at hx hop
    rw [hpos x (by rw [hop]; simp)] at hal ⊢
    exact hv x hx hop hal

/-! ## Lowering -/

/-- What is needed of the instructions of the function in SSA form: each is in the form that code generation can handle; operands are the stack pointer, arguments and
instructions of the blocks `R` with a result; phis name blocks of `R`; variables are allocated at the entry before they are used. -/
structure Fits (f : Fn) (R : List Nat) (d : BitVec 16) : Prop where
  insn : ∀ x, InR f R x → InsnOk (ops f) f.sp d (f.insn x)
  dom : ∀ x, InR f R x → ∀ y, .insn y ∈ operands (f.insn x) → y = f.sp ∨ y ∈ f.args ∨ (InR f R y ∧ (hasResult (f.insn y).op = true ∨ (f.insn y).op = .call))
  labels : ∀ x, InR f R x → (f.insn x).op = .phi → ∀ o ∈ (f.insn x).phi, o.1 ∈ R
  args : ∀ y ∈ f.args, (f.insn y).op ≠ .allocarray
  early : Early f R (fun _ => True)
  sp : (f.insn f.sp).op = .reg

theorem operands_cleared {i : Insn} (ho : i.op = .call) : operands { i with vals := [] } = [] := operands_call ho

theorem insnOk_call {op : Nat → Op} {sp : Nat} {d : BitVec 16} {i : Insn} (h : InsnOk op sp d i) (ho : i.op = .call) : InsnOk op sp d { i with vals := [] } := by
  have e : operands { i with vals := [] } = [] := operands_call ho
  have hr : raw i.op = false := by rw [ho]; rfl
  refine ⟨h.noThrow, by rw [e]; simp, by rw [e]; simp, by simp, h.addr, h.noAddr, .other (by rw [refs_eq, e]; rfl) ⟨by rw [e]; simp, fun h => ?_⟩⟩
  dsimp only at h
  rw [hr] at h; cases h

/-- The operands of a call are not variables, arrays or the stack pointer. -/
theorem InsnOk.callArg {op : Nat → Op} {sp : Nat} {d : BitVec 16} {i : Insn} (h : InsnOk op sp d i) (ho : i.op = .call) {v : Val} (hv : v ∈ i.vals) :
    (∀ y, v = .insn y → PlainVal op sp y) ∧ ∀ k c t b, v = .const k c t b → k = .plain := by
  have hm : v ∈ operands i := by rw [operands_call ho]; exact hv
  refine ⟨fun y e => ⟨fun hy => ?_, fun hy => ?_, fun hy => ?_⟩, fun k c t b e => ?_⟩
  · have := (h.var y (by rw [← e]; exact hm) hy).1
    rw [ho] at this; simp at this
  · have := (h.arr y (by rw [← e]; exact hm) hy).1
    rw [ho] at this; simp at this
  · cases h.form with
    | other h1 _ =>
      have := refs_pos.2 (show .insn sp ∈ operands i by rw [← hy, ← e]; exact hm)
      omega
    | access h1 => rw [ho] at h1; simp at h1
    | add _ _ _ h1 _ _ => rw [ho] at h1; cases h1
  · cases h.form with
    | other _ h1 => exact h1.1 v hm k c t b e
    | access h1 => rw [ho] at h1; simp at h1
    | add _ _ _ h1 _ _ => rw [ho] at h1; cases h1

theorem lower_shape {f : Fn} {R : List Nat} {d : BitVec 16} {s : Cg} {rn : Nat → Nat} {H N M : Nat → List Nat} {C : List Nat} {A : List (Nat × Nat)} (hr : Ready f R)
    (hF : Fits f R d) (h : Lowd f R s.f (places s.pos) rn (rgOf f) H N M) (hl : Low (initCg f).f (rgOf f) (initCg f).pos C A s rn H N M)
    (hC : ∀ y, y ∈ C ↔ (∃ b ∈ R, y ∈ f.body b) ∧ (f.insn y).op = .call) :
    Shape s.f R (rgOf f) d ∧ PosInv s R (rgOf f) 0 ∧ Early s.f R (fun a => (s.pos a).allocated = false) ∧ (∀ i, i < 10 → rgOf f i ∈ s.f.args) ∧ VarsOn s R ∧ Fixed s.f (rgOf f) := by
  have ht := hr.tidy
  have hsub := hr.blocks
  have hlt : ∀ {x}, Live f x → x < f.next := fun hx => ht.lt _ hx
  have hsp : s.f.sp = f.sp := hl.core.grown.sp
  have hspl : f.sp < f.next := hlt (.inl rfl)
  have hentR : f.entry ∈ R := hr.flow.entry
  have liveR : ∀ {x}, InR f R x → Live f x := fun hx => .inr (.inr (hx.inBody hsub))
  have stay : ∀ {x}, InR f R x → InR s.f R x := fun ⟨b, hb, hx⟩ => ⟨b, hb, hl.core.grown.stay (hsub b hb) hx⟩
  have opL : ∀ {y}, Live f y → ops s.f y = ops f y := by
    intro y hy
    unfold ops
    by_cases hyC : y ∈ C
    · rw [hl.core.done y hyC, init_insn (hlt hy)]
    · rw [hl.core.old y (init_live.2 (.inl hy)) hyC, mapOps_op, init_insn (hlt hy)]
  have opR : ∀ i, i < 10 → ops s.f (rgOf f i) = .reg := by
    intro i hi
    unfold ops
    rw [hl.core.old _ (init_live.2 (.inr ⟨i, hi, rfl⟩)) (fun hc => by
      obtain ⟨⟨b, hb, hx⟩, -⟩ := (hC _).1 hc
      have := hlt (liveR ⟨b, hb, hx⟩)
      unfold rgOf at this; omega), mapOps_op, init_reg hi]
  have plainR : ∀ i, i < 10 → PlainVal (ops s.f) s.f.sp (rgOf f i) := fun i hi =>
    ⟨by rw [opR i hi]; simp, by rw [opR i hi]; simp, by rw [hsp]; unfold rgOf; omega⟩
  have regs : ∀ i, i < 10 → rgOf f i ∈ s.f.args := by
    intro i hi
    rw [hl.core.grown.args]
    exact List.mem_append_right _ (List.mem_map.2 ⟨i, List.mem_range.2 hi, rfl⟩)
  have inH : ∀ {n}, n ∈ H f.entry → InR s.f R n := by
    intro n hn
    refine ⟨f.entry, hentR, ?_⟩
    rw [hl.core.grown.body _ (hsub _ hentR)]
    exact List.mem_append_right _ (List.mem_append_left _ hn)
  have inNM : ∀ {b x n}, b ∈ R → x ∈ codeOf f b → n ∈ N x ∨ n ∈ M x → InR s.f R n := by
    intro b x n hb hx hn
    refine ⟨b, hb, ?_⟩
    rw [hl.core.grown.body _ (hsub _ hb), (init_code ht (hsub b hb)).2]
    refine List.mem_append_right _ (List.mem_append_right _ (List.mem_append_left _ ?_))
    unfold ex
    refine List.mem_flatMap.2 ⟨x, hx, ?_⟩
    rcases hn with hn | hn
    · exact List.mem_append_left _ hn
    · exact List.mem_append_right _ (List.mem_cons_of_mem _ hn)
  -- an operand with its new name
  have ren : ∀ {x y}, InR f R x → .insn y ∈ operands (f.insn x) → (rn y = y ∨ (PlainVal (ops s.f) s.f.sp y ∧ PlainVal (ops s.f) s.f.sp (rn y))) ∧ Dom s.f R (rgOf f) (rn y) := by
    intro x y hx hy
    have hxl := liveR hx
    have hrf : 0 < refs (f.insn x) y := refs_pos.2 hy
    have asg : ∀ {n v}, f.next ≤ n → s.f.insn n = mkAssign v → PlainVal (ops s.f) s.f.sp n := by
      intro n v h1 h2
      have : ops s.f n = .assign := by unfold ops; rw [h2]; rfl
      exact ⟨by rw [this]; simp, by rw [this]; simp, by omega⟩
    have asgR : ∀ {n v}, s.f.insn n = mkAssign v → hasResult (ops s.f n) = true := by
      intro n v h2
      have : ops s.f n = .assign := by unfold ops; rw [h2]; rfl
      rw [this]; rfl
    have big : rn y ≠ y → f.next ≤ rn y := fun e => by
      have := (hl.core.new y).resolve_left e
      have h2 : (initCg f).f.next = f.next + 10 := rfl
      omega
    by_cases er : rn y = y
    · refine ⟨.inl er, ?_⟩
      rw [er]
      rcases hF.dom x hx y hy with e | e | e
      · exact .inl (by rw [hsp]; exact e)
      · obtain ⟨i, hi, e2⟩ := List.getElem_of_mem e
        rcases h.args i y (by rw [List.getElem?_eq_getElem hi, e2]) with h1 | ⟨h1, -⟩
        · have := h1 x hxl; omega
        · rw [er] at h1
          have h2 := hl.core.grown.newB _ _ (List.mem_append_left _ h1)
          have h3 : (initCg f).f.next = f.next + 10 := rfl
          have := hlt (.inr (.inl e)); omega
      · refine .inr (.inr ⟨stay e.1, ?_⟩)
        rw [opL (liveR e.1)]
        refine e.2.resolve_right fun hc => ?_
        obtain ⟨⟨b, hb, hyb⟩, -⟩ := e
        rcases (h.call b hb y hyb hc).2.2 with ⟨-, h1⟩ | ⟨h1, -⟩
        · have := h1 x hxl; omega
        · have h2 := hl.core.grown.newI y (rn y) (List.mem_append_right _ (by rw [h1]; exact List.mem_singleton.2 rfl))
          have h3 : (initCg f).f.next = f.next + 10 := rfl
          have := hlt (liveR ⟨b, hb, hyb⟩); omega
    · rcases hF.dom x hx y hy with e | e | e
      · rw [e] at er; exact absurd h.sp.1 er
      · obtain ⟨i, hi, e2⟩ := List.getElem_of_mem e
        rcases h.args i y (by rw [List.getElem?_eq_getElem hi, e2]) with h1 | ⟨h1, h2⟩
        · have := h1 x hxl; omega
        · refine ⟨.inr ⟨⟨?_, ?_, ?_⟩, asg (big er) h2⟩, .inr (.inr ⟨inH h1, asgR h2⟩)⟩
          · rw [opL (.inr (.inl e))]; exact hr.fixed y (.inr e)
          · rw [opL (.inr (.inl e))]; exact hF.args y e
          · rw [hsp]; intro e3; rw [e3] at e; exact hr.sp e
      · obtain ⟨⟨b, hb, hyb⟩, -⟩ := e
        by_cases hc : (f.insn y).op = .call
        · rcases (h.call b hb y hyb hc).2.2 with ⟨-, h1⟩ | ⟨h1, h2⟩
          · have := h1 x hxl; omega
          · have hop : ops s.f y = .call := by rw [opL (liveR ⟨b, hb, hyb⟩)]; exact hc
            refine ⟨.inr ⟨⟨by rw [hop]; simp, by rw [hop]; simp, ?_⟩, asg (big er) h2⟩, .inr (.inr ⟨inNM hb (call_code hyb hc) (.inr (by rw [h1]; exact List.mem_singleton.2 rfl)), asgR h2⟩)⟩
            rw [hsp]; exact (ht.fixed b (hsub b hb) y hyb).1
        · exact absurd (h.plain b hb y hyb hc).2.2.2 er
  -- the instructions
  have cases : ∀ {b x}, b ∈ R → x ∈ s.f.body b → (x ∈ f.body b ∧ ((x ∈ C ∧ s.f.insn x = { f.insn x with vals := [] }) ∨ (x ∉ C ∧ s.f.insn x = mapOps (renV rn) (f.insn x)))) ∨
      ∃ v, s.f.insn x = mkAssign v ∧ (∀ y, v = .insn y → PlainVal (ops s.f) s.f.sp y ∧ Dom s.f R (rgOf f) y) ∧ ∀ k c t b, v = .const k c t b → k = .plain := by
    intro b x hb hx
    have reg : ∀ i, i < 10 → ∃ v, mkAssign (.insn (rgOf f i)) = mkAssign v ∧ (∀ y, v = .insn y → PlainVal (ops s.f) s.f.sp y ∧ Dom s.f R (rgOf f) y) ∧
        ∀ k c t b, v = .const k c t b → k = .plain := fun i hi => ⟨_, rfl, fun y e => by cases e; exact ⟨plainR i hi, .inr (.inl ⟨i, hi, rfl⟩)⟩, by simp⟩
    rcases Grown.mem hl.core.grown (hsub b hb) hx with hx1 | hx1 | hx1 | ⟨y, hy, hx1⟩
    · have hx1 : x ∈ f.body b := hx1
      have hxl : Live f x := liveR ⟨b, hb, hx1⟩
      refine .inl ⟨hx1, ?_⟩
      by_cases hxC : x ∈ C
      · exact .inl ⟨hxC, by rw [hl.core.done x hxC, init_insn (hlt hxl)]⟩
      · exact .inr ⟨hxC, by rw [hl.core.old x (init_live.2 (.inl hxl)) hxC, init_insn (hlt hxl)]⟩
    · by_cases e : b = f.entry
      · subst e
        obtain ⟨⟨i, hi, e⟩, -⟩ := hl.core.resH x hx1
        rw [e]
        exact .inr (reg (i + 1) (by omega))
      · rw [hl.core.head b e] at hx1; cases hx1
    · cases hx1
    · right
      rw [(init_code ht (hsub b hb)).2] at hy
      have hyb : y ∈ f.body b := code_body hy
      by_cases hyC : y ∈ C
      · have hop := ((hC y).1 hyC).2
        rcases List.mem_append.1 hx1 with hx1 | hx1
        · obtain ⟨v, hv, e⟩ := (hl.core.copies y hyC).asg x hx1
          rw [init_insn (hlt (liveR ⟨b, hb, hyb⟩))] at hv
          obtain ⟨p1, p2⟩ := (hF.insn y ⟨b, hb, hyb⟩).callArg hop hv
          have hvo : v ∈ operands (f.insn y) := by rw [operands_call hop]; exact hv
          refine ⟨_, e, fun z ez => ?_, fun k c t bb ek => ?_⟩
          · cases v with
            | insn w =>
              cases ez
              obtain ⟨r1, r2⟩ := ren ⟨b, hb, hyb⟩ hvo
              refine ⟨?_, r2⟩
              rcases r1 with r1 | r1
              · rw [r1]
                have hw := p1 w rfl
                have := ht.closed y w (liveR ⟨b, hb, hyb⟩) (refs_pos.2 hvo)
                exact ⟨by rw [opL this]; exact hw.1, by rw [opL this]; exact hw.2.1, by rw [hsp]; exact hw.2.2⟩
              · exact r1.2
            | const => cases ez
            | undef => cases ez
          · cases v with
            | insn w => cases ek
            | const => exact p2 k c t bb ek
            | undef => cases ek
        · rw [(hl.core.resM y x hx1).1]
          exact reg 0 (by omega)
      · rw [(hl.core.none y hyC).1, (hl.core.none y hyC).2] at hx1; cases hx1
  have shape : Shape s.f R (rgOf f) d := by
    refine ⟨fun x ⟨b, hb, hx⟩ => ?_, fun x ⟨b, hb, hx⟩ y hy => ?_, fun x ⟨b, hb, hx⟩ hop o ho => ?_⟩
    · rcases cases hb hx with ⟨hx1, ⟨hxC, e⟩ | ⟨hxC, e⟩⟩ | ⟨v, e, p1, p2⟩
      · rw [e]
        refine insnOk_call ?_ ((hC x).1 hxC).2
        rw [hsp]
        exact (hF.insn x ⟨b, hb, hx1⟩).congr fun y hy => opL (ht.closed x y (liveR ⟨b, hb, hx1⟩) (refs_pos.2 hy))
      · rw [e]
        have hI : InsnOk (ops s.f) s.f.sp d (f.insn x) := by
          rw [hsp]
          exact (hF.insn x ⟨b, hb, hx1⟩).congr fun y hy => opL (ht.closed x y (liveR ⟨b, hb, hx1⟩) (refs_pos.2 hy))
        refine hI.subst (subst_mapOps fun v hv => ?_)
        cases v with
        | insn y =>
          show VRel _ _ _ _ (.insn (rn y))
          rcases (ren ⟨b, hb, hx1⟩ hv).1 with r1 | ⟨r1, r2⟩
          · rw [r1]; exact .same _
          · exact .insn y _ r1 r2
        | const => exact .same _
        | undef => exact .same _
      · rw [e]
        exact insnOk_assign (fun y ey => (p1 y ey).1) p2
    · rcases cases hb hx with ⟨hx1, ⟨hxC, e⟩ | ⟨hxC, e⟩⟩ | ⟨v, e, p1, p2⟩
      · rw [e, operands_cleared ((hC x).1 hxC).2] at hy; cases hy
      · rw [e, operands_mapOps] at hy
        obtain ⟨w, hw, ew⟩ := List.mem_map.1 hy
        cases w with
        | insn z => cases ew; exact (ren ⟨b, hb, hx1⟩ hw).2
        | const => cases ew
        | undef => cases ew
      · rw [e] at hy
        have : .insn y = v := by simpa [operands, mkAssign, raw] using hy
        exact (p1 y this.symm).2
    · rcases cases hb hx with ⟨hx1, ⟨hxC, e⟩ | ⟨hxC, e⟩⟩ | ⟨v, e, p1, p2⟩
      · rw [e] at hop
        have := ((hC x).1 hxC).2
        rw [this] at hop; cases hop
      · rw [e, mapOps_op] at hop
        rw [e] at ho
        unfold mapOps at ho
        dsimp only at ho
        rw [if_pos hop] at ho
        obtain ⟨o', ho', rfl⟩ := List.mem_map.1 ho
        exact hF.labels x ⟨b, hb, hx1⟩ hop o' ho'
      · rw [e] at hop; cases hop
  have flat : ∀ z, (s.pos z).spilled = 0 ∧ ((s.pos z).allocated = true → (s.pos z).reg = 10 → z = f.sp) := by
    intro z
    rcases hl.core.flat z with e | e | ⟨y, hy, j, hj, e⟩
    · rw [e]
      show (VrPos.spilled (if _ then _ else if _ then _ else _)) = 0 ∧ (VrPos.allocated (if _ then _ else if _ then _ else _) = true → VrPos.reg (if _ then _ else if _ then _ else _) = 10 → _)
      split
      · rename_i ez; exact ⟨rfl, fun _ _ => ez⟩
      · split
        · refine ⟨rfl, fun _ e2 => ?_⟩
          have := congrArg Fin.val e2
          simp only [Fin.ofNat] at this
          rename_i h2
          have e3 : ((10 : Reg)).val = 10 := rfl
          rw [e3] at this
          omega
        · exact ⟨rfl, fun e2 _ => by cases e2⟩
    · rw [e]; exact ⟨rfl, fun e2 _ => by cases e2⟩
    · rw [e]
      refine ⟨rfl, fun _ e2 => ?_⟩
      obtain ⟨⟨b, hb, hyb⟩, hop⟩ := (hC y).1 hy
      rw [init_insn (hlt (liveR ⟨b, hb, hyb⟩))] at hj
      have := (hr.arity b hb y hyb hop).2
      have := congrArg Fin.val e2
      simp only [Fin.ofNat] at this
      have e3 : ((10 : Reg)).val = 10 := rfl
      rw [e3] at this
      omega
  refine ⟨shape, ⟨fun i hi => ?_, ?_, fun x _ => (flat x).1, fun x h1 _ h3 => by rw [hsp]; exact (flat x).2 h1 h3, fun x hx => absurd (flat x).1 hx, fun x hx => absurd (flat x).1 hx,
    fun x y _ hx _ => absurd (flat x).1 hx⟩, ?_, regs, fun x ⟨b, hb, hx⟩ hop hal => ?_, ?_, opR⟩
  · rw [hl.core.posOld _ (by show rgOf f i < f.next + 10; unfold rgOf; omega)]
    show (if _ then _ else if _ then _ else _) = _
    unfold rgOf
    rw [if_neg (by omega), if_pos (by omega), Nat.add_sub_cancel_left]
  · rw [hsp, hl.core.posOld _ (by show f.sp < f.next + 10; omega)]
    show (if _ then _ else if _ then _ else _) = _
    rw [if_pos rfl]
  · have e0 : Early (initCg f).f R (fun _ => True) := by
      intro a ha hop _
      have hal : Live f a := liveR ha
      rw [init_insn (hlt hal)] at hop
      obtain ⟨pre, rest, e, hz⟩ := hF.early a ha hop trivial
      refine ⟨pre, rest, e, fun x hx => ?_⟩
      rw [init_insn (hlt (liveR ⟨f.entry, hentR, by rw [e]; simp [hx]⟩))]
      exact hz x hx
    refine early_grown hl.core.grown hsub hentR ?_ e0 (fun a ⟨b, hb, ha⟩ hop _ => ?_) (fun x hx a ha hop hz => ?_) (fun x hx hxn a ha hop _ => ?_)
    · show phisOf (initCg f).f f.entry = []
      rw [(init_code ht (hsub _ hentR)).1]; exact hr.entry
    · rcases cases hb ha with ⟨hx1, -⟩ | ⟨v, e, -⟩
      · have hal : Live f a := liveR ⟨b, hb, hx1⟩
        refine ⟨⟨b, hb, hx1⟩, ?_, trivial⟩
        rw [init_insn (hlt hal)]
        have := opL hal
        unfold ops at this
        rw [← this]; exact hop
      · rw [e] at hop; cases hop
    · have hx : x ∈ f.body f.entry := hx
      have hxl : Live f x := liveR ⟨_, hentR, hx⟩
      have hal : Live f a := liveR ha
      rw [init_insn (hlt hal)] at hop
      rw [init_insn (hlt hxl)] at hz
      refine Nat.eq_zero_of_not_pos fun hp => ?_
      have hm := refs_pos.1 hp
      by_cases hxC : x ∈ C
      · rw [hl.core.done x hxC, init_insn (hlt hxl), operands_cleared ((hC x).1 hxC).2] at hm
        cases hm
      · rw [hl.core.old x (init_live.2 (.inl hxl)) hxC, init_insn (hlt hxl), operands_mapOps] at hm
        obtain ⟨w, hw, ew⟩ := List.mem_map.1 hm
        cases w with
        | insn z =>
          have ew : rn z = a := Val.insn.inj ew
          rcases (ren ⟨_, hentR, hx⟩ hw).1 with r1 | ⟨-, r2⟩
          · have := refs_pos.2 hw
            rw [← r1, ew] at this; omega
          · rw [ew] at r2
            exact r2.1 (by rw [opL hal]; exact hop)
        | const => cases ew
        | undef => cases ew
    · have hx : x ∈ s.f.body f.entry := hx
      have hal : Live f a := liveR ha
      rw [init_insn (hlt hal)] at hop
      rcases cases hentR hx with ⟨hx1, -⟩ | ⟨v, e, p1, -⟩
      · have := hlt (liveR ⟨_, hentR, hx1⟩)
        have h2 : (initCg f).f.next = f.next + 10 := rfl
        omega
      · refine Nat.eq_zero_of_not_pos fun hp => ?_
        have hm := refs_pos.1 hp
        rw [e] at hm
        have : .insn a = v := by simpa [operands, mkAssign, raw] using hm
        exact (p1 a this.symm).1.1 (by rw [opL hal]; exact hop)
  · exfalso
    rcases cases hb hx with ⟨hx1, -⟩ | ⟨v, e, -⟩
    · have hxl := hlt (liveR ⟨b, hb, hx1⟩)
      rw [hl.core.posOld _ (by show x < f.next + 10; omega)] at hal
      have hal : VrPos.allocated (if _ then _ else if _ then _ else _) = true := hal
      rw [if_neg (ht.fixed b (hsub b hb) x hx1).1, if_neg (by omega)] at hal
      cases hal
    · rw [e] at hop; cases hop
  · rw [hsp]
    have := opL (y := f.sp) (.inl rfl)
    unfold ops at this
    rw [this]; exact hF.sp

/-- After the steps before register allocation the form holds. -/
theorem prepare_holds {f : Fn} {R : List Nat} {d : BitVec 16} {s : Cg} {off : Int} (hr : Ready f R) (hn : Neat f R) (hF : Fits f R d)
    (ha : ∀ b ∈ R, ∀ x ∈ f.body b, (f.insn x).op = .allocarray → 0 < arrBytes (f.insn x) ∧ arrBytes (f.insn x) + 7 < 2 ^ 32) (e : prepare f R = .ok (s, off)) :
    Holds s R (rgOf f) d off := by
  obtain ⟨s0, rn, H, N, M, e0, h, C, A, hl, hC, -⟩ := lower_ok hr
  have h0 := lower_ready hr hn h hl hC
  obtain ⟨k1, k2, k3, k4, k5, k6⟩ := lower_shape hr hF h hl hC
  obtain ⟨s1, off1, e1, -⟩ := C54_arrays h0 hr.nodup (lower_arrays hr hl hC ha)
  have H1 := arrays_holds h0 k1 k2 k3 k4 k5 k6 hr.nodup (lower_arrays hr hl hC ha) e1
  obtain ⟨s2, e2, -⟩ := C53_const H1.ready hr.nodup
  have H2 := const_holds H1 hr.nodup e2
  unfold prepare at e
  rw [e0, Out.ok_bind, e1, Out.ok_bind] at e
  dsimp only at e
  rw [e2, Out.ok_bind] at e
  cases e
  exact H2

end Verif.Compile
