import Verif.Flatten.Lemmas
/-!
# Flattening: executions
-/
namespace Verif.Flatten
open Verif Verif.IR Verif.Loc
open Verif.Norm (VrPos FVal FInsn posType)

variable {f : Fn} {R : List Nat} {dst : Nat → Option Nat} {pos : Nat → VrPos} {p : BitVec 64} {M : Bpf.World} {W : World}

theorem array_set (h : Placed f R dst pos) {τ : Loc.St} {σ : Bpf.St} (hm : Mirror f R pos p τ σ) {x : Nat} (hn : Names f R x)
    (ho : (f.insn x).op = .allocarray) : Mirror f R pos p (τ.set (places pos x) (slot p (pos x))) σ := by
  obtain ⟨ha, hs⟩ := h.arrays x hn ho
  rw [places_of ha]
  have hfar := placeOf_slot hs
  refine ⟨hm.sp, ?_, ?_, ?_, hm.mem, hm.trace⟩
  · intro r hr
    show σ.reg r = (if r = placeOf (pos x) then _ else τ.cell r)
    rw [if_neg (by omega)]
    exact hm.regs r hr
  · intro y hy
    show _ = (if placeOf (pos y) = placeOf (pos x) then _ else τ.cell (placeOf (pos y)))
    rw [if_neg (fun e => h.clear y x hy hn ho (placeOf_inj hy.2.2.2 hs e))]
    exact hm.slots y hy
  · intro y hy hyo
    show (if placeOf (pos y) = placeOf (pos x) then _ else τ.cell (placeOf (pos y))) = _
    split
    · next e =>
      unfold slot
      rw [placeOf_inj (h.arrays y hy hyo).2 hs e]
    · exact hm.arrays y hy hyo

theorem args_take (σ : Bpf.St) (fid : BitVec 32) : σ.args.take (Lift.arity fid) = (argRegs fid).map σ.reg := by
  show ([1, 2, 3, 4, 5].map σ.reg).take (Lift.arity fid) = ([1, 2, 3, 4, 5].take (Lift.arity fid)).map σ.reg
  rw [List.map_take]

theorem call_flat (hW : Serves f R pos p M W) (h : Placed f R dst pos) {τ : Loc.St} {σ : Bpf.St} (hm : Mirror f R pos p τ σ) (fid : BitVec 32) :
    Mirror f R pos p (Loc.doCall W.bpf fid τ) (Bpf.doCall M fid σ) := by
  have hlen : σ.args.length = 5 := rfl
  have hargs : σ.args.take (Lift.arity fid) = (argRegs fid).map τ.cell := by
    rw [args_take]
    refine List.map_congr_left (fun r hr => hm.regs r ?_)
    have := List.mem_of_mem_take hr
    simp at this
    omega
  have e1 := hW.ret σ.trace fid σ.args τ.mem σ.mem hlen hm.mem
  have e2 := hW.clob σ.trace fid σ.args τ.mem σ.mem hlen hm.mem
  have e3 := hW.mem σ.trace fid σ.args τ.mem σ.mem hlen hm.mem
  have e4 := hW.frame σ.trace fid σ.args σ.mem
  rw [hargs, hm.trace] at e1 e3
  simp only [hargs, hm.trace] at e2
  have hf : ∀ q, 10 < q → (Loc.doCall W.bpf fid τ).cell q = τ.cell q := fun q hq => by
    show (if q = 0 then _ else if 1 ≤ q ∧ q ≤ 5 then _ else τ.cell q) = _
    rw [if_neg (by omega), if_neg (by omega)]
  refine ⟨?_, ?_, ?_, ?_, e3, ?_⟩
  · show (if 10 = 0 then (M.call σ.trace fid σ.args σ.mem).ret else if 1 ≤ 10 ∧ 10 ≤ 5 then (M.call σ.trace fid σ.args σ.mem).clob 10 else σ.reg 10) = p
    rw [if_neg (by omega), if_neg (by omega)]
    exact hm.sp
  · intro r hr
    show (if r = 0 then (M.call σ.trace fid σ.args σ.mem).ret else if 1 ≤ r ∧ r ≤ 5 then (M.call σ.trace fid σ.args σ.mem).clob r else σ.reg r) =
      (if r = 0 then (W.bpf.call τ.trace fid ((argRegs fid).map τ.cell) τ.mem).ret else
        if 1 ≤ r ∧ r ≤ 5 then (W.bpf.call τ.trace fid ((argRegs fid).map τ.cell) τ.mem).clob r else τ.cell r)
    rw [e1, e2, hm.regs r hr]
  · intro y hy
    rw [hf _ (placeOf_slot hy.2.2.2), ← hm.slots y hy]
    refine Msan.load_congr 8 (fun i hi => ?_)
    exact e4 _ ⟨y, hy, in_slot hi rfl⟩
  · intro y hy hyo
    rw [hf _ (placeOf_slot (h.arrays y hy hyo).2)]
    exact hm.arrays y hy hyo
  · show (σ.trace ++ [(⟨fid, σ.args⟩ : Bpf.Event)]).map cut = τ.trace ++ [(⟨fid, (argRegs fid).map τ.cell⟩ : Bpf.Event)]
    rw [List.map_append, hm.trace, ← hargs]
    rfl

/-- The load or store at `x` in the state `τ` keeps away from the slots. -/
def Off (f : Fn) (R : List Nat) (pos : Nat → VrPos) (p : BitVec 64) (x : Nat) (τ : Loc.St) : Prop :=
  (f.insn x).op = .loadraw ∨ (f.insn x).op = .storeraw →
    ∀ A m i, eval (view (places pos) τ) (f.insn x).addr = some A → Flat.bytes (f.insn x).vrType = some m → i < m →
      ¬ InFrame f R pos p (A + (f.insn x).addrOff.signExtend 64 + BitVec.ofNat 64 i)

/-- The fact about the operands of an instruction that is not `getelemptr`. -/
theorem opv (h : Placed f R dst pos) {τ : Loc.St} {σ : Bpf.St} (hm : Mirror f R pos p τ σ) {b x : Nat} (hb : b ∈ R) (hx : x ∈ f.body b)
    (hg : (f.insn x).op ≠ .getelemptr) {v : Val} {w : BitVec 64} (hv : v ∈ (f.insn x).vals) (he : eval (view (places pos) τ) v = some w) :
    Flat.val σ (fv pos v) = some w :=
  val_flat hm (fun y e => by
    subst e
    exact ⟨⟨b, hb, x, hx, .inr (.inl hv)⟩, fun e => hg (h.values b hb x hx y hv e).1, (h.operand b hb x hx y (.inl hv)).2⟩) he

theorem exec_flat (h : Placed f R dst pos) (hW : Serves f R pos p M W) {τ τ' : Loc.St} {σ : Bpf.St} (hm : Mirror f R pos p τ σ) {b x : Nat} (hb : b ∈ R)
    (hx : x ∈ f.body b) (hc : control (f.insn x).op = false) (hoff : Off f R pos p x τ) (he : Loc.exec W (places pos) x (f.insn x) τ = some τ') :
    ∃ σ', Flat.exec M (fi f dst pos x) σ = some σ' ∧ Mirror f R pos p τ' σ' := by
  have hN : Names f R x := ⟨b, hb, x, hx, .inl rfl⟩
  have O := fun (hg : (f.insn x).op ≠ .getelemptr) {v w} => opv (v := v) (w := w) h hm hb hx hg
  -- an instruction with a result
  have res : ∀ v, hasResult (f.insn x).op = true → (f.insn x).op ≠ .alloc → (f.insn x).op ≠ .allocarray → τ' = τ.set (places pos x) v →
      Flat.exec M (fi f dst pos x) σ = Flat.put σ (fi f dst pos x).dst v → ∃ σ', Flat.exec M (fi f dst pos x) σ = some σ' ∧ Mirror f R pos p τ' σ' := by
    intro v h1 h2 h3 e1 e2
    obtain ⟨hd, ha, h10⟩ := h.result b hb x hx h1 h2
    have e3 : (fi f dst pos x).dst = pos x := by
      show resPos dst pos x = _
      unfold resPos
      rw [hd]
    rw [e2, e3, e1]
    exact put_flat h hm hN h3 ha h10 v
  have V : ∀ (vs : List Val), (f.insn x).vals = vs → (fi f dst pos x).v0 = (vs.map (fv pos))[0]?.getD .other ∧
      (fi f dst pos x).v1 = (vs.map (fv pos))[1]?.getD .other := fun vs e => by rw [← e]; exact ⟨rfl, rfl⟩
  -- an arithmetic instruction
  have bin : ∀ o, Flat.aluOp (f.insn x).op = some o → hasResult (f.insn x).op = true → (f.insn x).op ≠ .alloc → (f.insn x).op ≠ .allocarray →
      (f.insn x).op ≠ .getelemptr →
      (∀ τ, Loc.exec W (places pos) x (f.insn x) τ = (do
        let s ← (match (f.insn x).vals with
          | [v0, v1] => do
            let o ← Flat.aluOp (f.insn x).op
            let w ← Flat.width (f.insn x).aluOp
            let y ← eval (view (places pos) τ) v0
            let z ← eval (view (places pos) τ) v1
            some ((view (places pos) τ).set x (Bpf.alu w o y z))
          | _ => none)
        some (τ.set (places pos x) (s.env x)))) →
      (Flat.exec M (fi f dst pos x) σ = (do
        let o ← Flat.aluOp (f.insn x).op
        let w ← Flat.width (f.insn x).aluOp
        let y ← Flat.val σ (fi f dst pos x).v0
        let z ← Flat.val σ (fi f dst pos x).v1
        Flat.put σ (fi f dst pos x).dst (Bpf.alu w o y z))) →
      ∃ σ', Flat.exec M (fi f dst pos x) σ = some σ' ∧ Mirror f R pos p τ' σ' := by
    intro o ho h1 h2 h3 h4 e1 e2
    rw [e1] at he
    split at he
    · next v0 v1 hv =>
      simp only [Option.bind_eq_bind, Option.bind_eq_some_iff] at he
      obtain ⟨s, ⟨o', ho', w, hw, y, hy, z, hz, hs⟩, ht⟩ := he
      cases hs
      have ev := V _ hv
      refine res (Bpf.alu w o' y z) h1 h2 h3 ?_ ?_
      · rw [← Option.some.inj ht]
        simp [IR.St.set]
      · rw [e2, ho', hw, ev.1, ev.2]
        simp only [List.map_cons, List.getElem?_cons_zero, List.getElem?_cons_succ, Option.getD_some, Option.bind_eq_bind, Option.bind_some]
        rw [O h4 (by rw [hv]; simp) hy, O h4 (by rw [hv]; simp) hz]
        rfl
    · cases he
  cases hop : (f.insn x).op
  case alloc =>
    have e1 : Loc.exec W (places pos) x (f.insn x) τ = some τ := by simp only [Loc.exec, hop]
    rw [e1] at he
    cases he
    exact ⟨σ, by simp only [Flat.exec, fi, hop], hm⟩
  case allocarray =>
    have e1 : Loc.exec W (places pos) x (f.insn x) τ = some (τ.set (places pos x) (W.arr x)) := by simp [Loc.exec, IR.exec, hop, IR.St.set]
    rw [e1, hW.arr x hN hop] at he
    cases he
    exact ⟨σ, by simp only [Flat.exec, fi, hop], array_set h hm hN hop⟩
  case getelemptr =>
    simp only [Loc.exec, IR.exec, hop] at he
    split at he
    · next v0 v1 hv =>
      simp only [Option.bind_eq_bind, Option.bind_eq_some_iff] at he
      obtain ⟨s, ⟨o, ho, w, hw, hs⟩, ht⟩ := he
      cases hs
      have ev := V _ hv
      obtain ⟨y, hy, hst⟩ := h.bases b hb x hx hop _ _ hv
      subst hy
      refine res (w + o) (by rw [hop]; rfl) (by rw [hop]; simp) (by rw [hop]; simp) ?_ ?_
      · rw [← Option.some.inj ht]
        simp [IR.St.set]
      · have h0 : Flat.val σ (fv pos v0) = some o := val_flat hm (fun z e => by
          subst e
          refine ⟨⟨b, hb, x, hx, .inr (.inl (by rw [hv]; simp))⟩, fun e => ?_, (h.operand b hb x hx z (.inl (by rw [hv]; simp))).2⟩
          obtain ⟨_, v, h1, h2⟩ := h.values b hb x hx z (by rw [hv]; simp) e
          rw [hv] at h1
          simp at h1
          exact h2 (by rw [← h1.1])) ho
        have h1 : Flat.addrVal σ (fv pos (.insn y)) = some w := addr_flat hm (fun z e => by
          cases e
          exact ⟨⟨b, hb, x, hx, .inr (.inl (by rw [hv]; simp))⟩, hst, (h.operand b hb x hx y (.inl (by rw [hv]; simp))).2⟩) (fun _ _ _ _ e => nomatch e) hw
        have hop' : (fi f dst pos x).op = .getelemptr := hop
        simp only [Flat.exec, hop', ev.1, ev.2, List.map_cons, List.getElem?_cons_zero, List.getElem?_cons_succ, Option.getD_some, h0, h1,
          Option.bind_eq_bind, Option.bind_some]
    · cases he
  case store =>
    obtain ⟨a, r, hv, hao, h10⟩ := h.vars b hb x hx (.inr hop)
    have e1 := he
    simp only [Loc.exec, hop, hv] at e1
    cases r with
    | nil => cases e1
    | cons v r =>
      cases r with
      | cons _ _ => cases e1
      | nil =>
        simp only [Option.bind_eq_bind, Option.bind_eq_some_iff] at e1
        obtain ⟨y, hy, ht⟩ := e1
        rw [← Option.some.inj ht]
        have ev := V _ hv
        have hop' : (fi f dst pos x).op = .store := hop
        have h0 := O (by rw [hop]; simp) (by rw [hv]; simp) hy
        obtain ⟨σ', h1, h2⟩ := put_flat h hm (x := a) ⟨b, hb, x, hx, .inr (.inl (by rw [hv]; simp))⟩ (by rw [hao]; simp)
          (h.operand b hb x hx a (.inl (by rw [hv]; simp))).2 h10 y
        refine ⟨σ', ?_, h2⟩
        simp only [Flat.exec, hop', ev.1, ev.2, List.map_cons, List.getElem?_cons_zero, List.getElem?_cons_succ, Option.getD_some, fv] at h0 ⊢
        rw [h0]
        exact h1
  case load =>
    obtain ⟨a, r, hv, hao, h10⟩ := h.vars b hb x hx (.inl hop)
    have e1 := he
    simp only [Loc.exec, IR.exec, hop, hv] at e1
    cases r with
    | cons _ _ => cases e1
    | nil =>
      simp only [Option.bind_eq_bind, Option.bind_some] at e1
      have ev := V _ hv
      have hN' : Names f R a := ⟨b, hb, x, hx, .inr (.inl (by rw [hv]; simp))⟩
      refine res (Flat.truncBytes (W.wid a) (τ.cell (places pos a))) (by rw [hop]; rfl) (by rw [hop]; simp) (by rw [hop]; simp) ?_ ?_
      · rw [← Option.some.inj e1]
        simp [IR.St.set, view]
      · have h0 : Flat.val σ (fv pos (.insn a)) = some (τ.cell (places pos a)) := O (by rw [hop]; simp) (by rw [hv]; simp) rfl
        have hop' : (fi f dst pos x).op = .load := hop
        have ht : (fi f dst pos x).vrType = (f.insn a).vrType := by
          show vt f (f.insn x) = _
          unfold vt
          rw [hop, hv]
        simp only [Flat.exec, hop', ev.1, ht, List.map_cons, List.getElem?_cons_zero, Option.getD_some, h0, hW.wid a hN' hao, Option.bind_eq_bind, Option.bind_some]
  case loadimm =>
    have e1 := he
    simp only [Loc.exec, IR.exec, hop, Option.bind_eq_bind, Option.bind_some] at e1
    have hop' : (fi f dst pos x).op = .loadimm := hop
    refine res _ (by rw [hop]; rfl) (by rw [hop]; simp) (by rw [hop]; simp) (by rw [← Option.some.inj e1]) ?_
    simp only [Flat.exec, hop', IR.St.set, if_true, hW.ldimm]
    rfl
  case loadraw =>
    have e1 := he
    simp only [Loc.exec, IR.exec, hop, Option.bind_eq_bind, Option.bind_eq_some_iff] at e1
    obtain ⟨s, ⟨A, hA, n, hn, hs⟩, ht⟩ := e1
    cases hs
    have hop' : (fi f dst pos x).op = .loadraw := hop
    have ht' : (fi f dst pos x).vrType = (f.insn x).vrType := by
      show vt f (f.insn x) = _
      unfold vt
      rw [hop]
    have ha' : (fi f dst pos x).addr = fv pos (f.insn x).addr := by
      show (if _ then _ else _) = _
      rw [if_pos (.inl hop)]
    obtain ⟨h1, h2⟩ := h.addrs b hb x hx (.inl hop)
    have h3 : Flat.addrVal σ (fv pos (f.insn x).addr) = some A := addr_flat hm (fun y e =>
      ⟨⟨b, hb, x, hx, .inr (.inr e)⟩, h1 y e, (h.operand b hb x hx y (.inr e)).2⟩) h2 hA
    refine res _ (by rw [hop]; rfl) (by rw [hop]; simp) (by rw [hop]; simp) (Option.some.inj ht).symm ?_
    have hl : Bpf.load n σ.mem (A + (f.insn x).addrOff.signExtend 64) = Bpf.load n τ.mem (A + (f.insn x).addrOff.signExtend 64) :=
      Msan.load_congr n (fun i hi => hm.mem _ (hoff (.inl hop) A n i hA hn hi))
    simp only [Flat.exec, hop', ht', ha', h3, hn, Option.bind_eq_bind, Option.bind_some, IR.St.set, if_true]
    show Flat.put σ _ (Bpf.load n σ.mem (A + (f.insn x).addrOff.signExtend 64)) = _
    rw [hl]
    rfl
  case storeraw =>
    have e1 := he
    simp only [Loc.exec, IR.exec, hop] at e1
    split at e1
    · next v hv =>
      simp only [Option.bind_eq_bind, Option.bind_eq_some_iff] at e1
      obtain ⟨s, ⟨A, hA, n, hn, y, hy, hs⟩, ht⟩ := e1
      cases hs
      have ev := V _ hv
      have hop' : (fi f dst pos x).op = .storeraw := hop
      have ht' : (fi f dst pos x).vrType = (f.insn x).vrType := by
        show vt f (f.insn x) = _
        unfold vt
        rw [hop]
      have ha' : (fi f dst pos x).addr = fv pos (f.insn x).addr := by
        show (if _ then _ else _) = _
        rw [if_pos (.inr hop)]
      obtain ⟨h1, h2⟩ := h.addrs b hb x hx (.inr hop)
      have h3 : Flat.addrVal σ (fv pos (f.insn x).addr) = some A := addr_flat hm (fun y e =>
        ⟨⟨b, hb, x, hx, .inr (.inr e)⟩, h1 y e, (h.operand b hb x hx y (.inr e)).2⟩) h2 hA
      have h0 := O (by rw [hop]; simp) (by rw [hv]; simp) hy
      refine ⟨{ σ with mem := Bpf.store n σ.mem (A + (f.insn x).addrOff.signExtend 64) y }, ?_, ?_⟩
      · simp only [Flat.exec, hop', ht', ha', ev.1, List.map_cons, List.getElem?_cons_zero, Option.getD_some, h3, h0, hn, Option.bind_eq_bind, Option.bind_some]
        rfl
      · rw [← Option.some.inj ht]
        refine ⟨hm.sp, hm.regs, ?_, hm.arrays, ?_, hm.trace⟩
        · intro y' hy'
          rw [← hm.slots y' hy']
          refine Msan.load_congr 8 (fun i hi => Msan.store_out n (fun j hj e => ?_))
          exact hoff (.inr hop) A n j hA hn hj ⟨y', hy', in_slot hi e.symm⟩
        · intro a ha
          exact Msan.store_congr_mem n (hm.mem a ha)
    · cases e1
  case neg =>
    have e1 := he
    simp only [Loc.exec, IR.exec, hop] at e1
    split at e1
    · next v hv =>
      simp only [Option.bind_eq_bind, Option.bind_eq_some_iff] at e1
      obtain ⟨s, ⟨y, hy, w, hw, hs⟩, ht⟩ := e1
      cases hs
      have ev := V _ hv
      have hop' : (fi f dst pos x).op = .neg := hop
      have h0 := O (by rw [hop]; simp) (by rw [hv]; simp) hy
      have hw' : Flat.width (fi f dst pos x).aluOp = some w := hw
      refine res (Bpf.negate w y) (by rw [hop]; rfl) (by rw [hop]; simp) (by rw [hop]; simp) ?_ ?_
      · rw [← Option.some.inj ht]
        simp [IR.St.set]
      · simp only [Flat.exec, hop', ev.1, List.map_cons, List.getElem?_cons_zero, Option.getD_some, h0, hw', Option.bind_eq_bind, Option.bind_some]
    · cases e1
  case htobe =>
    have e1 := he
    simp only [Loc.exec, IR.exec, hop] at e1
    split at e1
    · next v hv =>
      simp only [Option.bind_eq_bind, Option.bind_eq_some_iff] at e1
      obtain ⟨s, ⟨y, hy, w, hw, hs⟩, ht⟩ := e1
      cases hs
      have ev := V _ hv
      have hop' : (fi f dst pos x).op = .htobe := hop
      have h0 := O (by rw [hop]; simp) (by rw [hv]; simp) hy
      have hw' : Bpf.swapVal true (fi f dst pos x).aux y = some w := hw
      refine res w (by rw [hop]; rfl) (by rw [hop]; simp) (by rw [hop]; simp) ?_ ?_
      · rw [← Option.some.inj ht]
        simp [IR.St.set]
      · simp only [Flat.exec, hop', ev.1, List.map_cons, List.getElem?_cons_zero, Option.getD_some, h0, hw', Option.bind_eq_bind, Option.bind_some]
    · cases e1
  case htole =>
    have e1 := he
    simp only [Loc.exec, IR.exec, hop] at e1
    split at e1
    · next v hv =>
      simp only [Option.bind_eq_bind, Option.bind_eq_some_iff] at e1
      obtain ⟨s, ⟨y, hy, w, hw, hs⟩, ht⟩ := e1
      cases hs
      have ev := V _ hv
      have hop' : (fi f dst pos x).op = .htole := hop
      have h0 := O (by rw [hop]; simp) (by rw [hv]; simp) hy
      have hw' : Bpf.swapVal false (fi f dst pos x).aux y = some w := hw
      refine res w (by rw [hop]; rfl) (by rw [hop]; simp) (by rw [hop]; simp) ?_ ?_
      · rw [← Option.some.inj ht]
        simp [IR.St.set]
      · simp only [Flat.exec, hop', ev.1, List.map_cons, List.getElem?_cons_zero, Option.getD_some, h0, hw', Option.bind_eq_bind, Option.bind_some]
    · cases e1
  case assign =>
    have e1 := he
    simp only [Loc.exec, IR.exec, hop] at e1
    split at e1
    · next v hv =>
      simp only [Option.bind_eq_bind, Option.bind_eq_some_iff] at e1
      obtain ⟨s, ⟨y, hy, hs⟩, ht⟩ := e1
      cases hs
      have ev := V _ hv
      have hop' : (fi f dst pos x).op = .assign := hop
      have h0 := O (by rw [hop]; simp) (by rw [hv]; simp) hy
      refine res (if (f.insn x).aluOp = .w32 then Flat.truncBytes 4 y else y) (by rw [hop]; rfl) (by rw [hop]; simp) (by rw [hop]; simp) ?_ ?_
      · rw [← Option.some.inj ht]
        simp [IR.St.set]
      · simp only [Flat.exec, hop', ev.1, List.map_cons, List.getElem?_cons_zero, Option.getD_some, h0, Option.bind_eq_bind, Option.bind_some]
        rfl
    · cases e1
  case call =>
    have e1 : Loc.exec W (places pos) x (f.insn x) τ = some (Loc.doCall W.bpf (f.insn x).aux τ) := by simp only [Loc.exec, hop]
    rw [e1] at he
    cases he
    exact ⟨Bpf.doCall M (f.insn x).aux σ, by simp only [Flat.exec, fi, hop], call_flat hW h hm _⟩
  case ret | throw | ja | jeq | jgt | jge | jlt | jle | jne | jsge | jsle | jsgt | jslt | phi => rw [hop] at hc; cases hc
  case reg | funarg | ecall =>
    simp only [Loc.exec, IR.exec, hop, Flat.aluOp] at he
    split at he <;> cases he
  all_goals
    exact bin _ (by rw [hop]; rfl) (by rw [hop]; rfl) (by rw [hop]; simp) (by rw [hop]; simp) (by rw [hop]; simp)
      (fun τ => by simp only [Loc.exec, IR.exec, hop]; rfl) (by simp only [Flat.exec, fi, hop])

end Verif.Flatten
