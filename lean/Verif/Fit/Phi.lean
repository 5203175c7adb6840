import Verif.Fit.Regs
import Verif.Spec.PhiOut
/-!
# The copies for phis, with the registers that the allocator assigns
-/
namespace Verif.Fit
open Verif Verif.IR Verif.Edit Verif.Loc
open Verif.Norm (VrPos Reg Op)

/-! ## The conflicts of phis are recorded -/

theorem foldl_ok {α} {g : α → Out (List (Nat × Nat))} : ∀ {xs : List α} {a : Out (List (Nat × Nat))}
    {c : List (Nat × Nat)}, xs.foldl (fun acc x => do
      let a ← acc
      let b ← g x
      .ok (a ++ b)) a = .ok c → (∃ c0, a = .ok c0 ∧ c0 ⊆ c) ∧ ∀ x ∈ xs, ∃ b, g x = .ok b ∧ b ⊆ c
  | [], a, c, h => ⟨⟨c, h, fun _ h => h⟩, by simp⟩
  | x :: xs, a, c, h => by
    rw [List.foldl_cons] at h
    obtain ⟨⟨c0, h1, h2⟩, h3⟩ := foldl_ok h
    obtain ⟨a0, rfl, h4⟩ := Out.bind_eq_ok.1 h1
    obtain ⟨b, h5, h6⟩ := Out.bind_eq_ok.1 h4
    cases h6
    refine ⟨⟨a0, rfl, fun _ h => h2 (List.mem_append_left _ h)⟩, ?_⟩
    intro y hy
    rcases List.mem_cons.1 hy with rfl | hy
    · exact ⟨b, h5, fun _ h => h2 (List.mem_append_right _ h)⟩
    · exact h3 y hy

/-- What is needed at the end of a predecessor conflicts with the phi. -/
structure PhiRecorded (f : Fn) (R : List Nat) (dst : Nat → Option Nat) (s : RA.St) (reqs : List (Nat × Nat)) : Prop where
  after : ∀ c ∈ R, ∀ x ∈ phisOf f c, ∀ o ∈ (f.insn x).phi, o.1 ∈ R → ∀ v, (s.cg v).fin = false → v ≠ x → IR.Needed f dst v o.1 [] → (v, x) ∈ reqs
  jump : ∀ c ∈ R, ∀ x ∈ phisOf f c, ∀ o ∈ (f.insn x).phi, o.1 ∈ R → ∀ v, (s.cg v).fin = false → v ≠ x → ∀ pre z, f.body o.1 = pre ++ [z] → isJmp (f.insn z).op = true →
    IR.Needed f dst v o.1 [z] → (v, x) ∈ reqs

theorem analyse_phi {f : Fn} (hok : Live.Ok f) (hg : Graph f) {R : List Nat} {dst : Nat → Option Nat} {s s1 : RA.St} (hf : Flow f R) (hA : AllocReady f R dst (posIn s))
    (hfin : ∀ v, (s.cg v).fin = (s.cg v).pos.allocated)
    {l : Live.L} (ha : Live.analyse f R dst s = .ok (l, s1)) : ∃ reqs, RA.conflicts reqs s = .ok s1 ∧ Recorded f R dst s reqs ∧ PhiRecorded f R dst s reqs := by
  obtain ⟨l0, h1, h2⟩ := Out.bind_eq_ok.1 ha
  obtain ⟨c, h3, h4⟩ := Out.bind_eq_ok.1 h2
  obtain ⟨s0, h5, h6⟩ := Out.bind_eq_ok.1 h4
  cases h6
  have hlive := Live.liveness_spec hok h1
  have jmp : ∀ b ∈ R, ∀ z ∈ f.body b, isJmp (f.insn z).op = true → ∀ v, dst z ≠ some v := by
    intro b hb z hz hj v e
    rw [hA.self b hb z hz] at e
    have : hasResult (f.insn z).op = false := by
      generalize (f.insn z).op = o at hj
      revert hj
      cases o <;> decide
    rw [this] at e
    cases e
  have inR : ∀ {b}, Conn f b → b ∈ R := fun {b} hb => by
    induction hb with
    | entry => exact hf.entry
    | step _ hab ih => exact hf.succs _ ih _ hab
  have key : ∀ (x v : Nat), (s.cg v).fin = false → v ≠ x → ∀ (k n : Nat) (d : List (Nat × Nat)), Live.phiConf f l x k n = .ok d → Conn f n → IR.Needed f dst v n [] → (v, x) ∈ d := by
    intro x v hv hvx k
    have hva : (posIn s v).allocated = false := by rw [posIn_alloc, ← hfin]; exact hv
    induction k with
    | zero => intro n d e; cases e
    | succ k ih =>
      intro n d e hn hneed
      have hnR := inR hn
      obtain ⟨d1, d2⟩ := defined_on_way hf hA hva hnR (pre := f.body n) (rest := []) (by simp) hneed
      rw [Live.phiConf] at e
      cases hl : (f.body n).getLast? with
      | some z =>
        rw [hl] at e
        dsimp only at e
        obtain ⟨pre, hpre⟩ := List.getLast?_eq_some_iff.1 hl
        have hz : z ∈ f.body n := by rw [hpre]; simp
        have hd := hlive.2.2 v d1 d2 hv n (hA.blocks n hnR).1 pre z [] hpre
        cases e
        refine List.mem_map.2 ⟨v, List.mem_filter.2 ⟨?_, by simpa using hvx⟩, rfl⟩
        split
        · rename_i hj
          exact hd.1 (.skip (jmp n hnR z hz hj v) hneed)
        · exact hd.2 hneed
      | none =>
        rw [hl] at e
        dsimp only at e
        have hemp : f.body n = [] := List.getLast?_eq_none_iff.1 hl
        cases hn with
        | entry => exact absurd (by rw [hemp]; exact hneed) (hA.defined v hva)
        | @step a _ ha hab =>
          have haR := inR ha
          obtain ⟨e', h7, h8⟩ := (foldl_ok e).2 a ((hg.sym a (hA.blocks a haR).1 n (hA.blocks n hnR).1).1 hab)
          exact h8 (ih a e' h7 ha (.jump hab (by rw [hemp]; exact hneed)))
  have conf : ∀ c' ∈ R, ∀ x ∈ phisOf f c', ∀ o ∈ (f.insn x).phi, ∃ d, Live.phiConf f l x (Live.depth f) o.1 = .ok d ∧ d ⊆ c := by
    intro c' hc x hx o ho
    have hxR : x ∈ Live.insns f R := List.mem_flatMap.2 ⟨c', hc, (List.takeWhile_prefix _).subset hx⟩
    obtain ⟨b', h7, h8⟩ := (Live.conflictReqs_ok h3).2 x hxR
    unfold Live.insnConf at h7
    obtain ⟨a, h9, h10⟩ := Out.bind_eq_ok.1 h7
    cases h10
    unfold Live.phiReqs at h9
    rw [if_pos (phisOf_phi hx)] at h9
    obtain ⟨d, h11, h12⟩ := (foldl_ok h9).2 o ho
    exact ⟨d, h11, fun y hy => h8 (List.mem_append_left _ (List.mem_append_left _ (h12 hy)))⟩
  refine ⟨_, h5, ⟨?_, ?_⟩, ?_, ?_⟩
  · intro v hv hd hf b hb pre x rest e hn d hx hne
    have hout := (hlive.2.2 v hv hd hf b hb pre x rest e).2 hn
    exact List.mem_append_left _ (hlive.1 x d v hout hx hne)
  · intro v hv hd hf b hb hbR pre x rest e hop hx hn i hi
    have hlive := hlive.2.2 v hv hd hf b hb pre x rest e
    have hout := hlive.2 hn
    have hin := hlive.1 (.skip hx hn)
    have hxR : x ∈ Live.insns f R := List.mem_flatMap.2 ⟨b, hbR, by rw [e]; simp⟩
    obtain ⟨b', h7, h8⟩ := (Live.conflictReqs_ok h3).2 x hxR
    exact List.mem_append_right _ (h8 (Live.insnConf_call h7 hop hin hout hi))
  · intro c' hc x hx o ho hoR v hv hvx hn
    obtain ⟨d, h7, h8⟩ := conf c' hc x hx o ho
    exact List.mem_append_right _ (h8 (key x v hv hvx _ _ d h7 (hA.blocks _ hoR).2 hn))
  · intro c' hc x hx o ho hoR v hv hvx pre z e hj hn
    obtain ⟨d, h7, h8⟩ := conf c' hc x hx o ho
    refine List.mem_append_right _ (h8 ?_)
    have hva : (posIn s v).allocated = false := by rw [posIn_alloc, ← hfin]; exact hv
    obtain ⟨d1, d2⟩ := defined_on_way hf hA hva hoR e hn
    have hd := hlive.2.2 v d1 d2 hv o.1 (hA.blocks _ hoR).1 pre z [] e
    generalize Live.depth f = k at h7
    cases k with
    | zero => cases h7
    | succ k =>
      rw [Live.phiConf, e, List.getLast?_concat] at h7
      dsimp only at h7
      rw [if_pos hj] at h7
      cases h7
      exact List.mem_map.2 ⟨v, List.mem_filter.2 ⟨hd.1 hn, by simpa using hvx⟩, rfl⟩

/-! ## Registers that are needed after the assignment -/

/-- The operands an instruction reads. -/
theorem reads_vals (i : Insn) (hc : i.op ≠ .call) : ∃ vs : List Val, (∀ v ∈ vs, v ∈ operands i) ∧ ∀ l, reads l i = vs.flatMap (place l) := by
  obtain ⟨op, vals, phi, addr, addrOff, addrKind, aluOp, vrType, bb1, bb2, aux, immKind, imm64⟩ := i
  cases op
  case call => exact absurd rfl hc
  case store => exact ⟨vals.tail, fun v hv => by have := List.mem_of_mem_tail hv; simp [operands, this], fun l => rfl⟩
  case loadraw => exact ⟨[addr], fun v hv => by simp only [List.mem_singleton] at hv; simp [operands, raw, hv], fun l => by simp [reads]⟩
  case storeraw => exact ⟨vals ++ [addr], fun v hv => by simpa [operands, raw] using hv, fun l => by simp [reads]⟩
  all_goals exact ⟨vals, fun v hv => by simp [operands, hv], fun l => rfl⟩

theorem places_kept {s s2 : RA.St} {reqs : List (Nat × Nat)} (ha : Assigned s s2 reqs) {y : Nat} (h : (posIn s y).allocated = true) : places (posIn s2) y = places (posIn s) y := by
  have h2 : (posIn s2 y) = posIn s y := by unfold posIn; rw [ha.kept y h]
  unfold places
  rw [h2]

theorem low_alloc {pos : Nat → VrPos} {x : Nat} (h : places pos x < 10) : (pos x).allocated = true := by
  cases e : (pos x).allocated with
  | true => rfl
  | false =>
    rw [places_free e] at h
    have := Cg.virt_big x
    omega

section
variable {f : Fn} {R : List Nat} {dst : Nat → Option Nat} {s s2 : RA.St} {reqs : List (Nat × Nat)}

/-- If a register is needed after the assignment, a value in it is, or it was needed as a machine register. -/
theorem needed_reg (hf : Flow f R) (h : AllocReady f R dst (posIn s)) (ha : Assigned s s2 reqs) (hno : ∀ b ∈ R, ∀ x ∈ f.body b, (f.insn x).op ≠ .alloc ∧ (f.insn x).op ≠ .store)
    {q b : Nat} (hq : q < 10) {rest : List Nat} (hn : Needed f (places (posIn s2)) q b rest) :
    b ∈ R → (∃ pre, f.body b = pre ++ rest) → (∀ x ∈ rest, (f.insn x).op ≠ .phi) →
    (∃ y, (posIn s y).allocated = false ∧ places (posIn s2) y = q ∧ IR.Needed f dst y b rest) ∨ Needed f (places (posIn s)) q b rest := by
  induction hn with
  | @read b x rest hr =>
    intro hb he hp
    by_cases hc : (f.insn x).op = .call
    · refine .inr (.read ?_)
      unfold reads at hr ⊢
      rw [hc] at hr ⊢
      exact hr
    · obtain ⟨vs, h1, h2⟩ := reads_vals (f.insn x) hc
      rw [h2] at hr
      obtain ⟨v, hv, hq2⟩ := List.mem_flatMap.1 hr
      cases v with
      | insn y =>
        have hq2 := List.mem_singleton.1 hq2
        cases hal : (posIn s y).allocated with
        | true =>
          refine .inr (.read ?_)
          rw [h2]
          exact List.mem_flatMap.2 ⟨_, hv, by rw [place, List.mem_singleton, ← places_kept ha hal]; exact hq2⟩
        | false => exact .inl ⟨y, hal, hq2.symm, .use (hp x List.mem_cons_self) (refs_pos.2 (h1 _ hv))⟩
      | _ => cases hq2
  | @skip b x rest hw hn ih =>
    intro hb ⟨pre, he⟩ hp
    have hx : x ∈ f.body b := by rw [he]; simp
    have hphi := hp x List.mem_cons_self
    obtain ⟨hna, hns⟩ := hno b hb x hx
    rcases ih hb ⟨pre ++ [x], by rw [he]; simp⟩ (fun y hy => hp y (List.mem_cons_of_mem _ hy)) with ⟨y, h1, h2, h3⟩ | h3
    · refine .inl ⟨y, h1, h2, .skip (fun hd => ?_) h3⟩
      rw [h.self b hb x hx] at hd
      split at hd
      · rename_i hres
        cases hd
        exact hw (by rw [← h2]; exact result_writes hres hna hphi)
      · cases hd
    · refine .inr (.skip (fun hw2 => hw ?_) h3)
      rcases writes_cases hw2 with ⟨hc, -⟩ | ⟨hc, -⟩ | ⟨hres, e⟩
      · unfold writes at hw2 ⊢
        rw [hc] at hw2 ⊢
        exact hw2
      · exact absurd hc hns
      · rw [e, ← places_kept ha (low_alloc (by rw [← e]; exact hq))]
        exact result_writes hres hna hphi
  | @phi b c x y hc hx ho e =>
    intro hb _ _
    cases hal : (posIn s y).allocated with
    | true => exact .inr (.phi hc hx ho (by rw [← places_kept ha hal]; exact e))
    | false => exact .inl ⟨y, hal, e.symm, .phi hc ((List.takeWhile_prefix _).subset hx) (phisOf_phi hx) ho⟩
  | @edge b c hc hne hn ih =>
    intro hb _ _
    have hcR := hf.succs b hb c hc
    rcases ih hcR ⟨phisOf f c, (phisOf_append f c).symm⟩ (h.front c hcR) with ⟨y, h1, h2, h3⟩ | h3
    · refine .inl ⟨y, h1, h2, .jump hc ?_⟩
      rw [← phisOf_append f c]
      have hps : ∀ z ∈ phisOf f c, dst z ≠ some y := fun z hz hd => by
        rw [h.self c hcR z ((List.takeWhile_prefix _).subset hz)] at hd
        split at hd
        · cases hd; exact hne _ hz h2.symm
        · cases hd
      generalize phisOf f c = ps at hps
      induction ps with
      | nil => exact h3
      | cons p ps ihp => exact .skip (hps p List.mem_cons_self) (ihp fun z hz => hps z (List.mem_cons_of_mem _ hz))
    · refine .inr (.edge hc (fun x hx e => hne x hx ?_) h3)
      rw [places_kept ha (low_alloc (by rw [← e]; exact hq))]
      exact e

/-! ## The copies fit -/

theorem mem_copiesAt {p : Nat} {o : Nat × Val} : o ∈ copiesAt f R p ↔ ∃ c ∈ R, o.1 ∈ phisOf f c ∧ (p, o.2) ∈ (f.insn o.1).phi := by
  unfold copiesAt
  constructor
  · intro h
    obtain ⟨x, hx, h⟩ := List.mem_flatMap.1 h
    obtain ⟨c, hc, hx⟩ := List.mem_flatMap.1 hx
    obtain ⟨w, hw, e⟩ := List.mem_map.1 h
    obtain ⟨h1, h2⟩ := List.mem_filter.1 hw
    have h2 : w.1 = p := by simpa using h2
    subst e
    exact ⟨c, hc, hx, by dsimp only; rw [← h2]; exact h1⟩
  · rintro ⟨c, hc, hx, ho⟩
    exact List.mem_flatMap.2 ⟨o.1, List.mem_flatMap.2 ⟨c, hc, hx⟩, List.mem_map.2 ⟨_, List.mem_filter.2 ⟨ho, by simp⟩, rfl⟩⟩

/-- Conflicting values have different places. -/
theorem differ (ha : Assigned s s2 reqs) {a b : Nat} (hr : (a, b) ∈ reqs) (h1 : (posIn s a).allocated = false) (h2 : (posIn s b).allocated = false)
    (hb : places (posIn s2) b < 10) : places (posIn s2) a ≠ places (posIn s2) b := by
  intro e
  have key : ∀ {v}, (posIn s v).allocated = false → places (posIn s2) v < 10 → (s2.cg v).pos.inReg = some (places (posIn s2) v) := fun {v} hv hl => by
    rcases new_place ha (v := v) hv with h | ⟨r, h3, -, h4⟩
    · rw [h] at hl
      have := Cg.virt_big v
      omega
    · rw [h4]; exact h3
  have := (ha.apart a b hr _ (key h1 (by omega)) (by rw [e]; exact key h2 hb)).1
  rw [RA.inReg_unalloc h1] at this
  cases this

theorem needed_front {v c : Nat} {L : List Nat} (hn : IR.Needed f dst v c L) : ∀ {ps : List Nat}, (∀ z ∈ ps, dst z ≠ some v) → IR.Needed f dst v c (ps ++ L)
  | [], _ => hn
  | p :: _, h => .skip (h p List.mem_cons_self) (needed_front hn fun z hz => h z (List.mem_cons_of_mem _ hz))

/-- With the registers that the allocator assigns the copies for phis can be made one after the other, if the three hazards do not occur. -/
theorem copies_fit (hf : Flow f R) (hloop : ∀ b ∈ R, f.entry ∉ f.succs b) (h : AllocReady f R dst (posIn s))
    (hp : PhiRecorded f R dst s reqs) (ha : Assigned s s2 reqs)
    (hfin : ∀ v, (s.cg v).fin = (s.cg v).pos.allocated) (hno : ∀ b ∈ R, ∀ x ∈ f.body b, (f.insn x).op ≠ .alloc ∧ (f.insn x).op ≠ .store)
    (hT : Tame f R (places (posIn s))) (hjmp : ∀ b ∈ R, ∀ z ∈ f.body b, control (f.insn z).op = true → (f.insn z).op ≠ .phi → ∀ y, .insn y ∈ operands (f.insn z) → 10 ≤ places (posIn s) y)
    (hfree : ∀ c ∈ R, ∀ x ∈ phisOf f c, (posIn s x).allocated = false ∧ (s2.cg x).pos.allocated = true) (hS : PhiSafe f R dst) :
    CopiesFit f R (places (posIn s2)) := by
  have low : ∀ {c x}, c ∈ R → x ∈ phisOf f c → places (posIn s2) x < 10 := fun {c x} hc hx => by
    obtain ⟨h1, h2⟩ := hfree c hc x hx
    rcases new_place ha (v := x) h1 with h3 | ⟨r, -, h3, h4⟩
    · have := (Loc.places_virt (pos := posIn s2) h3).2
      rw [posIn_alloc, h2] at this; cases this
    · omega
  have self : ∀ {c x}, c ∈ R → x ∈ phisOf f c → dst x = some x := fun {c x} hc hx => by
    rw [h.self c hc x ((List.takeWhile_prefix _).subset hx), phisOf_phi hx]; rfl
  have inb : ∀ {c x}, x ∈ phisOf f c → x ∈ f.body c := fun hx => (List.takeWhile_prefix _).subset hx
  refine ⟨fun p hpR z hz hcz hzp o ho hin => ?_, fun p hpR c hc A x v B e hn hB => ?_, hS.defined, hS.once⟩
  · obtain ⟨c, hc, hx, hop⟩ := mem_copiesAt.1 ho
    have hnc : (f.insn z).op ≠ .call := by intro e; rw [e] at hcz; cases hcz
    obtain ⟨y, e, hy⟩ := reads_operand hnc hin
    have hyo : y ≠ o.1 := fun e => by
      have h1 := hS.jump p hpR z hz hcz hzp o ho
      have h2 := refs_pos.2 hy
      rw [e] at h2; omega
    have hlow := low hc hx
    have hxf := (hfree c hc _ hx).1
    cases hal : (posIn s y).allocated with
    | true =>
      have := hjmp p hpR z hz hcz hzp y hy
      rw [← places_kept ha hal] at this
      omega
    | false =>
      obtain ⟨pre, rest, e2⟩ := List.append_of_mem hz
      have hlast := hf.last p hpR pre z rest e2 hcz hzp
      subst hlast
      have hj : isJmp (f.insn z).op = true := by
        generalize (f.insn z).op = o at hcz hzp
        revert hcz hzp
        cases o <;> decide
      have := hp.jump c hc o.1 hx (p, o.2) hop hpR y (by rw [hfin]; exact hal) hyo pre z e2 hj (.use hzp (refs_pos.2 hy))
      exact differ ha this hal hxf hlow e.symm
  · have hmem : (x, v) ∈ copiesAt f R p := by rw [e]; simp
    obtain ⟨cx, hcx, hx, hop⟩ := mem_copiesAt.1 hmem
    dsimp only at hx hop
    have hlow := low hcx hx
    have hxf := (hfree cx hcx _ hx).1
    have hcR := hf.succs p hpR c hc
    have hce : c ≠ f.entry := fun e => hloop p hpR (e ▸ hc)
    have hx1 : x ∈ phisOf f c := by
      rcases needed_reg hf h ha hno hlow hn hcR ⟨_, (phisOf_append f c).symm⟩ (h.front c hcR) with ⟨y, h1, h2, h3⟩ | h3
      · by_cases hy : y ∈ phisOf f c
        · obtain ⟨w, hw, hwp⟩ := hS.full p hpR c hc y hy
          have hyc : (y, w.2) ∈ copiesAt f R p := mem_copiesAt.2 ⟨c, hcR, hy, by dsimp only; rw [← hwp]; exact hw⟩
          exact hS.one p hpR _ hyc _ hmem c hcR hy
        · exfalso
          have hend : IR.Needed f dst y p [] := .jump hc (by
            rw [← phisOf_append f c]
            refine needed_front h3 fun z hz hd => ?_
            rw [self hcR hz] at hd
            cases hd
            exact hy hz)
          by_cases hyx : y = x
          · subst hyx
            refine hS.lost p hpR _ hmem c hc hy ?_
            rw [← phisOf_append f c]
            refine needed_front h3 fun z hz hd => ?_
            rw [self hcR hz] at hd
            cases hd
            exact hy hz
          · exact differ ha (hp.after cx hcx x hx (p, v) hop hpR y (by rw [hfin]; exact h1) hyx hend) h1 hxf hlow h2
      · exact absurd h3 (tame_start hf hloop hT hcR hce hlow)
    refine ⟨hx1, fun o ho hin => ?_⟩
    cases v with
    | insn w =>
      have hin := List.mem_singleton.1 hin
      have hoc : o ∈ copiesAt f R p := by rw [e]; exact List.mem_append_left _ ho
      obtain ⟨co, hco, hox, hoop⟩ := mem_copiesAt.1 hoc
      have holow := low hco hox
      have hof := (hfree co hco _ hox).1
      have hwo : w ≠ o.1 := fun e2 => hS.swap p hpR A x _ B e o ho (by rw [e2])
      cases hal : (posIn s w).allocated with
      | true =>
        have := hT.phis cx hcx x hx p w hop
        rw [← places_kept ha hal] at this
        omega
      | false =>
        have hneed : IR.Needed f dst w p [] := .phi hc (inb hx1) (phisOf_phi hx1) hop
        exact differ ha (hp.after co hco o.1 hox (p, o.2) hoop hpR w (by rw [hfin]; exact hal) hwo hneed) hal hof holow hin.symm
    | _ => cases hin

end

end Verif.Fit
