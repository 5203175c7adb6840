import Verif.Compile.Shape
/-!
# Spilling keeps the form of the instructions
-/
namespace Verif.Compile
open Verif Verif.IR Verif.Edit Verif.Cg
open Verif.RemPhi (All2)
open Verif.Loc (phisOf_append phisOf_phi hasResult)
open Verif.Norm (VrPos Reg Op)

/-- What holds between the steps of code generation. -/
structure Holds (s : Cg) (R : List Nat) (rg : Nat → Nat) (d : BitVec 16) (off : Int) : Prop where
  ready : SpillReady s R off
  shape : Shape s.f R rg d
  pos : PosInv s R rg off
  arrays : ArraysOn s R
  early : Early s.f R (fun a => (s.pos a).allocated = false)
  regs : ∀ i, i < 10 → rg i ∈ s.f.args
  vars : VarsOn s R
  fixed : Fixed s.f rg

/-- An instruction of the blocks `R` that can be spilled. -/
def VictimR (s : Cg) (R : List Nat) (v : Nat) : Prop := Victim s v ∧ InR s.f R v

theorem spill_inv {s : Cg} {R : List Nat} {v : Nat} {off : Int} (hB : Base s.f R) (hv : Victim s v) (ho : (s.f.insn v).op ≠ .alloc) :
    ∃ s' H N T, spillOne v s off = .ok (s', off - 8) ∧
      SpInv s.f s.pos ⟨true, 0, off - 8⟩ v (fun _ _ => False) s' H N (fun x => if x = v ∧ (s.f.insn v).op ≠ .phi then [s.f.next + 1] else []) T := by
  have hsp : Spills s.f v := ⟨hv.inb, ho, (hasResult_jmp hv.op.1).1⟩
  obtain ⟨g, H, h1, hnx, h2, h3⟩ := SpInv.start (pos0 := s.pos) hB hsp ⟨true, 0, off - 8⟩
  obtain ⟨s', N, T, h4, h5, h6⟩ := SpInv.reloads hB hsp (s.f.users v) _ _ _ h2 (fun u hu => hB.users v (.inr (.inr hv.inb)) u hu) (fun w hw => by
    by_cases e : 0 < refs (s.f.insn w) v
    · exact .inl (hB.cover v w hw (fun h => h) e)
    · dsimp only; rw [h3 w (hB.tidy.lt w hw)]; exact .inr (by omega))
  refine ⟨s', H, N, T, ?_, h5⟩
  unfold spillOne
  rw [if_neg (fun h => h.elim (hasResult_jmp hv.op.1).2 hv.op.2), if_neg ho]
  dsimp only
  rw [h1, Out.ok_bind, hnx]
  have : newSpill off 8 = off - 8 := rfl
  rw [this, h4, Out.ok_bind]

theorem InR.inBody {f : Fn} {R : List Nat} {x : Nat} (h : InR f R x) (hs : ∀ b ∈ R, b ∈ f.allBbs) : InBody f x := by
  obtain ⟨b, hb, hx⟩ := h
  exact ⟨b, hs b hb, hx⟩

theorem insnOk_alloc {op : Nat → Op} {sp : Nat} {d : BitVec 16} (t : Norm.VrTy) : InsnOk op sp d (mkAlloc t) :=
  ⟨by simp [mkAlloc], by simp [mkAlloc, operands, raw], by simp [mkAlloc, operands, raw], by simp [mkAlloc], by simp [mkAlloc, raw], by simp [mkAlloc],
    .other (by simp [refs, mkAlloc]) ⟨by simp [mkAlloc, operands, raw], by simp [mkAlloc, raw]⟩⟩

theorem spill_holds {s s' : Cg} {R : List Nat} {rg : Nat → Nat} {d : BitVec 16} {off off' : Int} {v : Nat} (h : Holds s R rg d off) (hv : VictimR s R v)
    (e : spillOne v s off = .ok (s', off')) : Holds s' R rg d off' ∧ (∀ x, x ≠ v → VictimR s R x → VictimR s' R x) := by
  have hB := h.ready.base
  obtain ⟨hV, hvR⟩ := hv
  have hp : PosOk s.pos off := ⟨h.ready.le, h.ready.pos⟩
  obtain ⟨s1, e1, st⟩ := step_ok hB hp h.ready.fresh hV
  rw [e] at e1
  cases e1
  have hr' := st.base.ready st.pos st.fresh
  have h0 := h.ready.le
  by_cases ho : (s.f.insn v).op = .alloc
  · -- a variable gets a slot
    unfold spillOne at e
    rw [if_neg (fun h => h.elim (hasResult_jmp hV.op.1).2 hV.op.2), if_pos ho] at e
    cases e
    have hz := h.pos.free v hV.free
    have hne : newSpill off 8 ≠ 0 := by unfold newSpill; omega
    have hns : newSpill off 8 = off - 8 := rfl
    refine ⟨⟨hr', h.shape, ⟨fun i hi => ?_, ?_, fun x hx => ?_, fun x h1 h2 h3 => ?_, fun x hx => ?_, fun x hx => ?_, fun x y hxy hx hy => ?_⟩, fun x hx hop => ?_, ?_, h.regs, fun x hx hop hal => ?_, h.fixed⟩, ?_⟩
    · dsimp only
      rw [upd_ne]
      · exact h.pos.rg i hi
      · intro e2
        have := hV.free
        rw [← e2, h.pos.rg i hi] at this; cases this
    · dsimp only
      rw [upd_ne]
      · exact h.pos.sp
      · intro e2
        have := hV.free
        rw [← e2, h.pos.sp] at this; cases this
    · dsimp only at hx ⊢
      by_cases ex : x = v
      · rw [ex, upd_same] at hx; cases hx
      · rw [upd_ne _ _ ex] at hx ⊢; exact h.pos.free x hx
    · dsimp only at h1 h2 h3
      by_cases ex : x = v
      · rw [ex, upd_same] at h2; exact absurd h2 hne
      · rw [upd_ne _ _ ex] at h1 h2 h3; exact h.pos.r10 x h1 h2 h3
    · dsimp only at hx ⊢
      by_cases ex : x = v
      · rw [ex, upd_same]; dsimp only; omega
      · rw [upd_ne _ _ ex] at hx ⊢; have := h.pos.neg x hx; omega
    · dsimp only at hx ⊢
      by_cases ex : x = v
      · rw [ex]; exact ⟨hV.inb, .inl ho⟩
      · rw [upd_ne _ _ ex] at hx; exact h.pos.stack x hx
    · dsimp only at hx hy ⊢
      by_cases ex : x = v
      · have ey : y ≠ v := fun e => hxy (by rw [ex, e])
        rw [upd_ne _ _ ey] at hy ⊢
        rw [ex, upd_same]
        dsimp only
        have := h.pos.neg y hy; omega
      · rw [upd_ne _ _ ex] at hx ⊢
        by_cases ey : y = v
        · rw [ey, upd_same]
          dsimp only
          have := h.pos.neg x hx; omega
        · rw [upd_ne _ _ ey] at hy ⊢; exact h.pos.apart x y hxy hx hy
    · dsimp only at hx hop ⊢
      rw [upd_ne]
      · exact h.arrays x hx hop
      · intro e2; rw [e2] at hop; exact hV.op.2 hop
    · intro a ha hop hfree
      dsimp only at ha hop hfree ⊢
      refine h.early a ha hop ?_
      by_cases ex : a = v
      · rw [ex, upd_same] at hfree; cases hfree
      · rw [upd_ne _ _ ex] at hfree; exact hfree
    · dsimp only at hal ⊢
      by_cases ex : x = v
      · rw [ex, upd_same]; exact hne
      · rw [upd_ne _ _ ex] at hal ⊢; exact h.vars x hx hop hal
    · intro x hx hv'
      exact ⟨st.next x hx hv'.1, hv'.2⟩
  · -- a value is spilled
    obtain ⟨s2, H, N, T, e2, hI⟩ := spill_inv (off := off) hB hV ho
    rw [e] at e2
    cases e2
    have hsub := h.ready.sub
    have hlt : ∀ {x}, InBody s.f x → x < s.f.next := fun hx => h.ready.tidy.lt _ (.inr (.inr hx))
    have hnx := hI.next2
    have hsp : s'.f.sp = s.f.sp := hI.grown.sp
    have hentR : s.f.entry ∈ R := h.ready.flow.entry
    have hspl : s.f.sp < s.f.next := h.ready.tidy.lt _ (.inl rfl)
    have stay : ∀ {x}, InR s.f R x → InR s'.f R x := fun ⟨b, hb, hx⟩ => ⟨b, hb, hI.grown.stay (hsub b hb) hx⟩
    have hopB : ∀ {x}, InBody s.f x → ops s'.f x = ops s.f x := fun ⟨b, hb, hx⟩ => hI.op hb hx
    have fixedOp : ∀ {x}, x = s.f.sp ∨ x ∈ s.f.args → s'.f.insn x = s.f.insn x := fun {x} hx =>
      hI.fixed x (hx.imp id .inl) (fun ⟨b, hb, hxb⟩ => by
        have := h.ready.tidy.fixed b hb x hxb
        exact hx.elim this.1 this.2)
    have hopD : ∀ {y}, Dom s.f R rg y → ops s'.f y = ops s.f y := by
      rintro y (e2 | ⟨i, hi, e2⟩ | e2)
      · unfold ops; rw [fixedOp (.inl e2)]
      · unfold ops; rw [e2, fixedOp (.inr (h.regs i hi))]
      · exact hopB (e2.1.inBody hsub)
    have domS : ∀ {y}, Dom s.f R rg y → Dom s'.f R rg y := by
      rintro y (e2 | e2 | e2)
      · exact .inl (by rw [hsp]; exact e2)
      · exact .inr (.inl e2)
      · exact .inr (.inr ⟨stay e2.1, by rw [hopB (e2.1.inBody hsub)]; exact e2.2⟩)
    have slotR : InR s'.f R s.f.next := ⟨s.f.entry, hentR, by
      rw [hI.grown.body _ (hsub _ hentR)]
      exact List.mem_append_right _ (List.mem_append_left _ hI.slot)⟩
    have opA : ops s'.f s.f.next = .alloc := by unfold ops; rw [hI.insnA]; rfl
    have plainV : PlainVal (ops s'.f) s'.f.sp v := by
      refine ⟨?_, ?_, ?_⟩
      · rw [hopB hV.inb]; exact ho
      · rw [hopB hV.inb]; exact hV.op.2
      · rw [hsp]; obtain ⟨b, hb, hx⟩ := hV.inb; exact (h.ready.tidy.fixed b hb v hx).1
    have plainN : ∀ {n}, s.f.next + 2 ≤ n → n < s'.f.next → PlainVal (ops s'.f) s'.f.sp n := by
      intro n h1 h2
      have : ops s'.f n = .load := by unfold ops; rw [hI.loads n h1 h2]; rfl
      exact ⟨by rw [this]; simp, by rw [this]; simp, by omega⟩
    have resN : ∀ {n}, s.f.next + 2 ≤ n → n < s'.f.next → hasResult (ops s'.f n) = true := by
      intro n h1 h2
      have : ops s'.f n = .load := by unfold ops; rw [hI.loads n h1 h2]; rfl
      rw [this]; rfl
    -- old instructions
    have old : ∀ b ∈ R, ∀ x ∈ s.f.body b, Subst (ops s'.f) s'.f.sp (s.f.insn x) (s'.f.insn x) ∧
        (∀ y, .insn y ∈ operands (s'.f.insn x) → .insn y ∈ operands (s.f.insn x) ∨ (InR s'.f R y ∧ hasResult (ops s'.f y) = true)) ∧
        ((s.f.insn x).op = .phi → ∀ o ∈ (s'.f.insn x).phi, o.1 ∈ R) := by
      intro b hb x hx
      have hx0 := hx
      rw [← phisOf_append s.f b] at hx
      rcases List.mem_append.1 hx with hx | hx
      · obtain ⟨q, e2, hq⟩ := hI.phi b (hsub b hb) x hx
        have hphi := phisOf_phi hx
        have hlab := h.shape.labels x ⟨b, hb, hx0⟩ hphi
        have hraw : raw (s.f.insn x).op = false := by rw [hphi]; rfl
        have ate : ∀ {o : Nat × Val} {n}, o ∈ (s.f.insn x).phi → AtEnd s.f N T o.1 n → InR s'.f R n := by
          intro o n ho hn
          have hoR := hlab o ho
          refine ⟨o.1, hoR, ?_⟩
          rw [hI.grown.body _ (hsub _ hoR)]
          refine List.mem_append_right _ (List.mem_append_right _ ?_)
          rcases hn with hn | ⟨A, z, ez, -, hn⟩
          · exact List.mem_append_right _ hn
          · refine List.mem_append_left _ ?_
            unfold ex
            exact List.mem_flatMap.2 ⟨z, by rw [ez]; simp, List.mem_append_left _ hn⟩
        have ateN : ∀ {b n}, AtEnd s.f N T b n → s.f.next + 2 ≤ n ∧ n < s'.f.next := by
          rintro b n (hn | ⟨A, z, -, -, hn⟩)
          · exact hI.newT _ n hn
          · exact hI.newN _ n hn
        refine ⟨?_, fun y hy => ?_, fun _ o ho' => ?_⟩
        · rw [e2]
          refine ⟨rfl, rfl, rfl, rfl, all2_refl (fun _ => .same _) _, ?_, .same _, fun _ => rfl⟩
          refine all2_imp (fun o o' ho' => ?_) hq
          rcases ho'.2 with e3 | ⟨e3, n, e4, e5, e6⟩
          · rw [e3]; exact .same _
          · rw [e3, e4]; exact .insn v n plainV (plainN e5 (ateN e6).2)
        · rw [e2] at hy
          unfold operands at hy ⊢
          dsimp only at hy
          rw [if_pos hphi, hraw] at hy ⊢
          simp only [List.mem_append, List.mem_map] at hy ⊢
          rcases hy with (hy | ⟨o', ho', e3⟩) | hy
          · exact .inl (.inl (.inl hy))
          · obtain ⟨o, ho1, -, h4⟩ := all2_right hq ho'
            rcases h4 with h4 | ⟨-, n, h4, -, h5⟩
            · exact .inl (.inl (.inr ⟨o, ho1, by rw [← h4]; exact e3⟩))
            · rw [h4] at e3; cases e3
              exact .inr ⟨ate ho1 h5, resN (ateN h5).1 (ateN h5).2⟩
          · exact .inl (.inr hy)
        · rw [e2] at ho'
          obtain ⟨o0, h1, h2, -⟩ := all2_right hq ho'
          rw [h2]
          exact hlab o0 h1
      · have hnp := h.ready.front b (hsub b hb) x hx
        rcases hI.insn b (hsub b hb) x hx with e2 | ⟨n, hn, e2⟩
        · rw [e2]
          exact ⟨⟨rfl, rfl, rfl, rfl, all2_refl (fun _ => .same _) _, all2_refl (fun _ => .same _) _, .same _, fun _ => rfl⟩, fun y hy => .inl hy, fun hp => absurd hp hnp⟩
        · obtain ⟨n1, n2⟩ := hI.newN x n hn
          have hnR : InR s'.f R n := ⟨b, hb, by
            rw [hI.grown.body _ (hsub _ hb)]
            refine List.mem_append_right _ (List.mem_append_right _ (List.mem_append_left _ ?_))
            unfold ex
            exact List.mem_flatMap.2 ⟨x, hx, List.mem_append_left _ hn⟩⟩
          rw [e2]
          refine ⟨subst_mapOps fun w _ => ?_, fun y hy => ?_, fun hp => absurd hp hnp⟩
          · unfold sub
            split
            · rename_i e3; rw [e3]; exact .insn v n plainV (plainN n1 n2)
            · exact .same _
          · rw [operands_mapOps] at hy
            obtain ⟨w, hw, e3⟩ := List.mem_map.1 hy
            unfold sub at e3
            split at e3
            · cases e3; exact .inr ⟨hnR, resN n1 n2⟩
            · rw [← e3]; exact .inl hw
    have cases : ∀ {b x}, b ∈ R → x ∈ s'.f.body b → x ∈ s.f.body b ∨ x = s.f.next ∨ x = s.f.next + 1 ∨ (s.f.next + 2 ≤ x ∧ x < s'.f.next) :=
      fun hb hx => hI.cases (hsub _ hb) hx
    have notA : ∀ a, InR s.f R a → a ≠ s.f.next := fun a ha => by have := hlt (ha.inBody hsub); omega
    refine ⟨⟨hr', ⟨fun x ⟨b, hb, hx⟩ => ?_, fun x ⟨b, hb, hx⟩ y hy => ?_, fun x ⟨b, hb, hx⟩ hop o ho' => ?_⟩,
      ⟨fun i hi => ?_, ?_, fun x hx => ?_, fun x h1 h2 h3 => ?_, fun x hx => ?_, fun x hx => ?_, fun x y hxy hx hy => ?_⟩, fun x ⟨b, hb, hx⟩ hop => ?_, ?_, ?_, fun x ⟨b, hb, hx⟩ hop hal => ?_, ?_⟩, ?_⟩
    · rcases cases hb hx with hx | rfl | rfl | ⟨h1, h2⟩
      · refine InsnOk.subst ?_ (old b hb x hx).1
        rw [hsp]
        exact (h.shape.insn x ⟨b, hb, hx⟩).congr fun y hy => hopD (h.shape.dom x ⟨b, hb, hx⟩ y hy)
      · rw [hI.insnA]; exact insnOk_alloc _
      · rw [hI.insnS]
        have hvn : v ≠ s.f.next := notA v hvR
        refine ⟨by simp [mkStore], fun y hy hop => ?_, fun y hy hop => ?_, by simp [mkStore], by simp [mkStore, raw], by simp [mkStore], .other ?_ ⟨?_, by simp [mkStore, raw]⟩⟩
        · simp [mkStore, operands, raw] at hy
          rcases hy with rfl | rfl
          · exact ⟨.inr rfl, [.insn v], rfl, by simp; exact fun e => hvn e.symm⟩
          · exact absurd hop plainV.1
        · simp [mkStore, operands, raw] at hy
          rcases hy with rfl | rfl
          · rw [opA] at hop; cases hop
          · exact absurd hop plainV.2.1
        · refine Nat.eq_zero_of_not_pos fun hp => ?_
          have := refs_pos.1 hp
          simp [mkStore, operands, raw] at this
          rcases this with e3 | e3
          · omega
          · exact plainV.2.2 e3.symm
        · intro w hw k c ct b' e3
          simp [mkStore, operands, raw] at hw
          rcases hw with rfl | rfl <;> cases e3
      · rw [hI.loads x h1 h2]
        refine ⟨by simp [theLoad, mkLoad], fun y hy hop => ?_, fun y hy hop => ?_, by simp [theLoad, mkLoad], by simp [theLoad, mkLoad, raw], by simp [theLoad, mkLoad], .other ?_ ⟨?_, by simp [theLoad, mkLoad, raw]⟩⟩
        · simp [theLoad, mkLoad, operands, raw] at hy
          rw [hy]
          exact ⟨.inl rfl, [], rfl, by simp⟩
        · simp [theLoad, mkLoad, operands, raw] at hy
          rw [hy, opA] at hop; cases hop
        · refine Nat.eq_zero_of_not_pos fun hp => ?_
          have := refs_pos.1 hp
          simp [theLoad, mkLoad, operands, raw] at this
          omega
        · intro w hw k c ct b' e3
          simp [theLoad, mkLoad, operands, raw] at hw
          rw [hw] at e3; cases e3
    · rcases cases hb hx with hx | rfl | rfl | ⟨h1, h2⟩
      · rcases (old b hb x hx).2.1 y hy with h1 | h1
        · exact domS (h.shape.dom x ⟨b, hb, hx⟩ y h1)
        · exact .inr (.inr h1)
      · rw [hI.insnA] at hy; simp [mkAlloc, operands, raw] at hy
      · rw [hI.insnS] at hy
        simp [mkStore, operands, raw] at hy
        rcases hy with rfl | rfl
        · exact .inr (.inr ⟨slotR, by rw [opA]; rfl⟩)
        · exact .inr (.inr ⟨stay hvR, by rw [hopB hV.inb]; exact hV.op.1⟩)
      · rw [hI.loads x h1 h2] at hy
        simp [theLoad, mkLoad, operands, raw] at hy
        rw [hy]
        exact .inr (.inr ⟨slotR, by rw [opA]; rfl⟩)
    · rcases cases hb hx with hx | rfl | rfl | ⟨h1, h2⟩
      · exact (old b hb x hx).2.2 (by rw [← hI.op (hsub b hb) hx]; exact hop) o ho'
      · rw [hI.insnA] at hop; simp [mkAlloc] at hop
      · rw [hI.insnS] at hop; simp [mkStore] at hop
      · rw [hI.loads x h1 h2] at hop; simp [theLoad, mkLoad] at hop
    · rw [hI.pos _ (h.ready.tidy.lt _ (.inr (.inl (h.regs i hi))))]; exact h.pos.rg i hi
    · rw [hsp, hI.pos _ hspl]; exact h.pos.sp
    · by_cases x1 : x < s.f.next
      · rw [hI.pos x x1] at hx ⊢; exact h.pos.free x hx
      · by_cases x2 : x = s.f.next
        · rw [x2, hI.posA] at hx; cases hx
        · by_cases x3 : x < s'.f.next
          · rw [hI.posN x (by omega) x3]; rfl
          · rw [hI.far x (by omega)] at hx ⊢; exact h.pos.free x hx
    · by_cases x1 : x < s.f.next
      · rw [hI.pos x x1] at h1 h2 h3; rw [hsp]; exact h.pos.r10 x h1 h2 h3
      · by_cases x2 : x = s.f.next
        · rw [x2, hI.posA] at h3; cases h3
        · by_cases x3 : x < s'.f.next
          · rw [hI.posN x (by omega) x3] at h1; cases h1
          · rw [hI.far x (by omega)] at h1 h2 h3; rw [hsp]; exact h.pos.r10 x h1 h2 h3
    · by_cases x1 : x < s.f.next
      · rw [hI.pos x x1] at hx ⊢; have := h.pos.neg x hx; omega
      · by_cases x2 : x = s.f.next
        · rw [x2, hI.posA]; dsimp only; omega
        · by_cases x3 : x < s'.f.next
          · rw [hI.posN x (by omega) x3] at hx; exact absurd rfl hx
          · rw [hI.far x (by omega)] at hx ⊢; have := h.pos.neg x hx; omega
    · by_cases x1 : x < s.f.next
      · rw [hI.pos x x1] at hx
        obtain ⟨k1, k2⟩ := h.pos.stack x hx
        rw [hopB k1]
        refine ⟨?_, k2⟩
        obtain ⟨b, hb, hx⟩ := k1
        exact ⟨b, by rw [hI.grown.allBbs]; exact hb, hI.grown.stay hb hx⟩
      · by_cases x2 : x = s.f.next
        · rw [x2]; exact ⟨slotR.inBody hr'.sub, .inl opA⟩
        · by_cases x3 : x < s'.f.next
          · rw [hI.posN x (by omega) x3] at hx; exact absurd rfl hx
          · rw [hI.far x (by omega)] at hx; have := hlt (h.pos.stack x hx).1; omega
    · have sp : ∀ x, (s'.pos x).spilled ≠ 0 → (x < s.f.next ∧ s'.pos x = s.pos x) ∨ (x = s.f.next ∧ (s'.pos x).spilled = off - 8) := by
        intro x hx
        by_cases x1 : x < s.f.next
        · exact .inl ⟨x1, hI.pos x x1⟩
        · by_cases x2 : x = s.f.next
          · exact .inr ⟨x2, by rw [x2, hI.posA]⟩
          · by_cases x3 : x < s'.f.next
            · rw [hI.posN x (by omega) x3] at hx; exact absurd rfl hx
            · rw [hI.far x (by omega)] at hx; have := hlt (h.pos.stack x hx).1; omega
      rcases sp x hx with ⟨x1, x2⟩ | ⟨x1, x2⟩ <;> rcases sp y hy with ⟨y1, y2⟩ | ⟨y1, y2⟩
      · rw [x2] at hx; rw [y2] at hy; rw [x2, y2]; exact h.pos.apart x y hxy hx hy
      · rw [x2] at hx; rw [x2, y2]; have := h.pos.neg x hx; omega
      · rw [y2] at hy; rw [y2, x2]; have := h.pos.neg y hy; omega
      · omega
    · rcases cases hb hx with hx | rfl | rfl | ⟨h1, h2⟩
      · have hxB : InBody s.f x := ⟨b, hsub b hb, hx⟩
        rw [hI.pos x (hlt hxB)]
        exact h.arrays x ⟨b, hb, hx⟩ (by rw [← hI.op (hsub b hb) hx]; exact hop)
      · rw [hI.insnA] at hop; simp [mkAlloc] at hop
      · rw [hI.insnS] at hop; simp [mkStore] at hop
      · rw [hI.loads x h1 h2] at hop; simp [theLoad, mkLoad] at hop
    · refine early_grown hI.grown hsub hentR h.ready.entry h.early (fun a ⟨b, hb, ha⟩ hop hfree => ?_) (fun x hx a ha hop hz => ?_) (fun x hx hxn a ha hop hA => ?_)
      · rcases cases hb ha with hx | rfl | rfl | ⟨h1, h2⟩
        · have hxB : InBody s.f a := ⟨b, hsub b hb, hx⟩
          refine ⟨⟨b, hb, hx⟩, by rw [← hI.op (hsub b hb) hx]; exact hop, ?_⟩
          rw [hI.pos a (hlt hxB)] at hfree; exact hfree
        · rw [hI.posA] at hfree; cases hfree
        · rw [hI.insnS] at hop; simp [mkStore] at hop
        · rw [hI.loads a h1 h2] at hop; simp [theLoad, mkLoad] at hop
      · refine Nat.eq_zero_of_not_pos fun hp => ?_
        have := refs_pos.2 ((old _ hentR x hx).1.memS (fun hpl => hpl.1 (by rw [hopB (ha.inBody hsub)]; exact hop)) (refs_pos.1 hp))
        omega
      · have han := hlt (ha.inBody hsub)
        refine Nat.eq_zero_of_not_pos fun hp => ?_
        have := refs_pos.1 hp
        rcases cases hentR hx with hx | rfl | rfl | ⟨h1, h2⟩
        · have := hlt ⟨_, hsub _ hentR, hx⟩; omega
        · rw [hI.insnA] at this; simp [mkAlloc, operands, raw] at this
        · rw [hI.insnS] at this
          simp [mkStore, operands, raw] at this
          rcases this with e3 | e3
          · omega
          · rw [e3] at hop; exact ho hop
        · rw [hI.loads x h1 h2] at this
          simp [theLoad, mkLoad, operands, raw] at this
          omega
    · intro i hi
      rw [hI.grown.args]; exact h.regs i hi
    · rcases cases hb hx with hx | rfl | rfl | ⟨h1, h2⟩
      · rw [hI.pos x (hlt ⟨b, hsub b hb, hx⟩)] at hal ⊢
        exact h.vars x ⟨b, hb, hx⟩ (by rw [← hI.op (hsub b hb) hx]; exact hop) hal
      · rw [hI.posA]; dsimp only; omega
      · rw [hI.insnS] at hop; simp [mkStore] at hop
      · rw [hI.loads x h1 h2] at hop; simp [theLoad, mkLoad] at hop
    · refine ⟨?_, fun i hi => ?_⟩
      · rw [hsp, fixedOp (.inl rfl)]; exact h.fixed.1
      · rw [fixedOp (.inr (h.regs i hi))]; exact h.fixed.2 i hi
    · intro x hx hv'
      exact ⟨st.next x hx hv'.1, stay hv'.2⟩

end Verif.Compile
