import Verif.Fit.Prep
import Verif.Fit.Phi
/-!
# The phis of the prepared function
-/
namespace Verif.Fit
open Verif Verif.IR Verif.Edit Verif.Cg Verif.Loc Verif.Compile
open Verif.Lower (Ready Neat own)
open Verif.Norm (VrPos Reg Op)

variable {f : Fn} {R : List Nat} {s t : Cg} {rn : Nat → Nat} {H N M K : Nat → List Nat}

theorem mem_code {f : Fn} {b x : Nat} (hx : x ∈ f.body b) (hp : (f.insn x).op ≠ .phi) : x ∈ codeOf f b := by
  rw [← phisOf_append f b] at hx
  rcases List.mem_append.1 hx with hx | hx
  · exact absurd (phisOf_phi hx) hp
  · exact hx

theorem Prepared.bodies (h : Prepared f R s t rn H N M K) {b : Nat} (hb : b ∈ R) : phisOf s.f b = phisOf f b := by
  rw [(h.const.code h.base (h.base.sub b hb)).1, (h.lowd.body b hb).1]

theorem Prepared.phi (h : Prepared f R s t rn H N M K) {b x : Nat} (hb : b ∈ R) (hx : x ∈ phisOf f b) : s.f.insn x = mapOps (renV rn) (f.insn x) ∧ rn x = x := by
  have hxb : x ∈ f.body b := by rw [← phisOf_append f b]; exact List.mem_append_left _ hx
  have hp := phisOf_phi hx
  obtain ⟨e1, -, -, e2⟩ := h.lowd.plain b hb x hxb (by rw [hp]; simp)
  have hxt : x ∈ t.f.body b := by rw [← phisOf_append t.f b, (h.lowd.body b hb).1]; exact List.mem_append_left _ hx
  refine ⟨?_, e2⟩
  rcases h.const.cases (h.base.tidy.lt x (.inr (.inr ⟨b, h.base.sub b hb, hxt⟩))) with ⟨e3, -⟩ | ⟨j, n, -, hu, -, -, -, -, -⟩
  · rw [e3, e1]
  · exfalso
    have := hu.notPhi.1
    rw [e1] at this
    exact this hp

/-- A jump reads no machine register. -/
theorem Prepared.jumps (h : Prepared f R s t rn H N M K) (hr : Ready f R) {b z y : Nat} (hb : b ∈ R) (hz : z ∈ s.f.body b) (hc : control (s.f.insn z).op = true)
    (hy : .insn y ∈ operands (s.f.insn z)) : 10 ≤ places s.pos y := by
  rcases h.mem hb hz with ⟨hx, h1⟩ | ⟨-, -, k, c, t, b', e⟩
  · have hop : (s.f.insn z).op = (t.f.insn z).op := by rcases h1 with e | ⟨j, n, -, -, -, e⟩ <;> rw [e]; rfl
    have hLt : Live t.f z := .inr (.inr ⟨b, h.base.sub b hb, hx⟩)
    have old : .insn y ∈ operands (t.f.insn z) → 10 ≤ places s.pos y := fun hy => by
      have hpos := h.pos (h.base.tidy.closed z y hLt (refs_pos.2 hy))
      have : places s.pos y = places t.pos y := by unfold places; rw [hpos]
      rw [this]
      rw [hop] at hc
      cases kind hr h.lowd hb hx with
      | plain h2 h3 e =>
        rw [e, operands_mapOps] at hy
        obtain ⟨v, hv, ev⟩ := List.mem_map.1 hy
        cases v with
        | insn w =>
          cases ev
          exact h.lowd.place_big (hr.tidy.closed z w (.inr (.inr ⟨b, hr.blocks b hb, h2⟩)) (refs_pos.2 hv))
        | _ => cases ev
      | call h2 h3 e => rw [e] at hc; dsimp only at hc; rw [h3] at hc; cases hc
      | fromReg i _ _ e => rw [e] at hc; cases hc
      | toReg y v _ _ _ _ _ e => rw [e] at hc; cases hc
    rcases h1 with e | ⟨j, n, hu, n1, n2, e⟩
    · rw [e] at hy; exact old hy
    · rw [e] at hy
      unfold fitted operands at hy
      dsimp only at hy
      simp only [List.mem_append] at hy
      rcases hy with (hy | hy) | hy
      · rcases List.mem_or_eq_of_mem_set hy with hy | hy
        · exact old (List.mem_append_left _ (List.mem_append_left _ hy))
        · cases hy
          rw [places_free (by rw [h.const.posN _ n1 n2]; rfl)]
          have := Cg.virt_big y
          omega
      · exact old (List.mem_append_left _ (List.mem_append_right _ hy))
      · exact old (List.mem_append_right _ hy)
  · rw [e] at hc; cases hc

/-- A use of a phi in the prepared function is one in the function. -/
theorem Prepared.uses (h : Prepared f R s t rn H N M K) (hr : Ready f R) {c v : Nat} (hc : c ∈ R) (hv : v ∈ phisOf f c) {b x : Nat} (hb : b ∈ R) (hx : x ∈ s.f.body b)
    (hp : (s.f.insn x).op ≠ .phi) (hu : 0 < refs (s.f.insn x) v) :
    ∃ y ∈ codeOf f b, 0 < refs (f.insn y) v ∧ (control (s.f.insn x).op = true → y = x ∧ (f.insn x).op = (s.f.insn x).op) := by
  have hvb : v ∈ f.body c := by rw [← phisOf_append f c]; exact List.mem_append_left _ hv
  have hLv : Live f v := .inr (.inr ⟨c, hr.blocks c hc, hvb⟩)
  have hvn : v < f.next := hr.tidy.lt v hLv
  have hrn := (h.phi hc hv).2
  have back : ∀ {w}, Live f w → renV rn (.insn w) = .insn v → w = v := fun {w} hw e => by
    refine h.lowd.inj w v hw hLv ?_
    rw [hrn]
    exact Val.insn.inj e
  rcases h.mem hb hx with ⟨hx, h1⟩ | ⟨-, -, k, c, t, b', e⟩
  · have hop : (s.f.insn x).op = (t.f.insn x).op := by rcases h1 with e | ⟨j, n, -, -, -, e⟩ <;> rw [e]; rfl
    have hut : 0 < refs (t.f.insn x) v := by
      rcases h1 with e | ⟨j, n, -, n1, n2, e⟩
      · rw [e] at hu; exact hu
      · rw [e] at hu
        have hy := refs_pos.1 hu
        rw [refs_pos]
        unfold fitted operands at hy
        dsimp only at hy
        simp only [List.mem_append] at hy
        rcases hy with (hy | hy) | hy
        · rcases List.mem_or_eq_of_mem_set hy with hy | hy
          · exact List.mem_append_left _ (List.mem_append_left _ hy)
          · exfalso
            have : v = n := Val.insn.inj hy
            have hvt : v < t.f.next := h.base.tidy.lt v (.inr (.inr ⟨c, h.base.sub c hc, by rw [← phisOf_append t.f c, (h.lowd.body c hc).1]; exact List.mem_append_left _ hv⟩))
            omega
        · exact List.mem_append_left _ (List.mem_append_right _ hy)
        · exact List.mem_append_right _ hy
    rw [hop] at hp ⊢
    cases kind hr h.lowd hb hx with
    | plain h2 h3 e =>
      rw [e] at hp ⊢
      refine ⟨x, mem_code h2 hp, ?_, fun _ => ⟨rfl, rfl⟩⟩
      have hy := refs_pos.1 hut
      rw [e, operands_mapOps] at hy
      obtain ⟨w, hw, ew⟩ := List.mem_map.1 hy
      cases w with
      | insn w =>
        rw [← back (hr.tidy.closed x w (.inr (.inr ⟨b, hr.blocks b hb, h2⟩)) (refs_pos.2 hw)) ew]
        exact refs_pos.2 hw
      | _ => cases ew
    | call h2 h3 e =>
      exfalso
      have hy := refs_pos.1 hut
      rw [e, operands_cleared h3] at hy
      cases hy
    | fromReg i hi _ e =>
      exfalso
      have hy := refs_pos.1 hut
      rw [e] at hy
      have : v = rgOf f i := by simpa [operands, mkAssign, raw] using hy
      unfold rgOf at this
      omega
    | toReg y w h2 h3 h4 _ _ e =>
      refine ⟨y, mem_code h2 (by rw [h3]; simp), ?_, fun hcl => by rw [e] at hcl; cases hcl⟩
      have hy := refs_pos.1 hut
      rw [e] at hy
      have hy : renV rn w = .insn v := by simpa [operands, mkAssign, raw, eq_comm] using hy
      have hw : w ∈ operands (f.insn y) := by rw [operands_call h3]; exact h4
      cases w with
      | insn w =>
        rw [← back (hr.tidy.closed y w (.inr (.inr ⟨b, hr.blocks b hb, h2⟩)) (refs_pos.2 hw)) hy]
        exact refs_pos.2 hw
      | _ => cases hy
  · exfalso
    have := refs_pos.1 hu
    rw [e] at this
    simp [operands, mkAssign, raw] at this

theorem own_mem {f : Fn} {x v : Nat} (h : own f x = some v) : x = v := by
  unfold own at h
  split at h
  · cases h
  · cases h; rfl

theorem needed_code {f : Fn} {v b : Nat} : ∀ {L : List Nat}, v ∉ L → (∀ x ∈ L, (f.insn x).op ≠ .phi) → (∃ y ∈ L, 0 < refs (f.insn y) v) ∨ IR.Needed f (own f) v b [] →
    IR.Needed f (own f) v b L
  | [], _, _, h => by
    rcases h with ⟨y, hy, -⟩ | h
    · cases hy
    · exact h
  | x :: L, hv, hp, h => by
    have hvx : own f x ≠ some v := fun e => hv (by rw [own_mem e]; simp)
    rcases h with ⟨y, hy, h⟩ | h
    · rcases List.mem_cons.1 hy with rfl | hy
      · exact .use (hp _ List.mem_cons_self) h
      · exact .skip hvx (needed_code (fun hm => hv (List.mem_cons_of_mem _ hm)) (fun z hz => hp z (List.mem_cons_of_mem _ hz)) (.inl ⟨y, hy, h⟩))
    · exact .skip hvx (needed_code (fun hm => hv (List.mem_cons_of_mem _ hm)) (fun z hz => hp z (List.mem_cons_of_mem _ hz)) (.inr h))

theorem Prepared.isPhi (h : Prepared f R s t rn H N M K) (hfront : ∀ b ∈ R, ∀ x ∈ codeOf s.f b, (s.f.insn x).op ≠ .phi) {b x : Nat} (hb : b ∈ R) (hx : x ∈ s.f.body b)
    (hp : (s.f.insn x).op = .phi) : x ∈ phisOf f b := by
  rw [← h.bodies hb]
  rw [← phisOf_append s.f b] at hx
  rcases List.mem_append.1 hx with hx | hx
  · exact hx
  · exact absurd hp (hfront b hb x hx)

/-- Operands of phis of the prepared function. -/
theorem Prepared.phiOps (h : Prepared f R s t rn H N M K) {b x : Nat} (hb : b ∈ R) (hx : x ∈ phisOf f b) : (s.f.insn x).phi = (f.insn x).phi.map (fun o => (o.1, renV rn o.2)) := by
  rw [(h.phi hb hx).1]
  unfold mapOps
  dsimp only
  rw [if_pos (phisOf_phi hx)]

/-- The renamed operand is a phi only if the operand was. -/
theorem Prepared.renPhi (h : Prepared f R s t rn H N M K) (hr : Ready f R) {c v : Nat} (hc : c ∈ R) (hv : v ∈ phisOf f c) {b x : Nat} (hb : b ∈ R) (hx : x ∈ phisOf f b) {o : Nat × Val}
    (ho : o ∈ (f.insn x).phi) (e : renV rn o.2 = .insn v) : o.2 = .insn v := by
  have hxb : x ∈ f.body b := by rw [← phisOf_append f b]; exact List.mem_append_left _ hx
  have hvb : v ∈ f.body c := by rw [← phisOf_append f c]; exact List.mem_append_left _ hv
  have hLx : Live f x := .inr (.inr ⟨b, hr.blocks b hb, hxb⟩)
  have hLv : Live f v := .inr (.inr ⟨c, hr.blocks c hc, hvb⟩)
  obtain ⟨p, w⟩ := o
  cases w with
  | insn w =>
    have hw : Live f w := hr.tidy.closed x w hLx (refs_pos.2 (by
      unfold operands
      refine List.mem_append_left _ (List.mem_append_right _ ?_)
      rw [if_pos (phisOf_phi hx)]
      exact List.mem_map.2 ⟨_, ho, rfl⟩))
    have := h.lowd.inj w v hw hLv (by rw [(h.phi hc hv).2]; exact Val.insn.inj e)
    rw [this]
  | _ => cases e

/-- A phi that is needed in the prepared function is needed in the function. -/
theorem Prepared.needed (h : Prepared f R s t rn H N M K) (hr : Ready f R) (hn : Neat f R) (hfront : ∀ b ∈ R, ∀ x ∈ codeOf s.f b, (s.f.insn x).op ≠ .phi)
    {c v : Nat} (hc : c ∈ R) (hv : v ∈ phisOf f c) {b : Nat} {rest : List Nat}
    (hne : IR.Needed s.f (dst s.f) v b rest) : b ∈ R → (∃ pre, s.f.body b = pre ++ rest) → v ∉ rest ∧ IR.Needed f (own f) v b (codeOf f b) := by
  have hphi := phisOf_phi hv
  have front : ∀ {b}, b ∈ R → ∀ x ∈ codeOf f b, (f.insn x).op ≠ .phi := fun hb x hx => hn.front _ (hr.blocks _ hb) x hx
  have hvc : ∀ {b}, b ∈ R → v ∉ codeOf f b := fun hb hm => front hb v hm hphi
  have hsp : (s.f.insn v).op = .phi := by rw [(h.phi hc hv).1]; exact hphi
  have hsu : ∀ {b}, s.f.succs b = f.succs b := fun {b} => by rw [h.const.grown.succs, h.lowd.succs]
  induction hne with
  | @use b x rest hp hu =>
    intro hb ⟨pre, e⟩
    have hx : x ∈ s.f.body b := by rw [e]; simp
    obtain ⟨y, hy, h1, -⟩ := h.uses hr hc hv hb hx hp hu
    refine ⟨fun hm => ?_, needed_code (hvc hb) (front hb) (.inl ⟨y, hy, h1⟩)⟩
    rw [← phisOf_append s.f b] at e
    obtain ⟨A, e1, e2⟩ | ⟨A, e1, e2⟩ := List.append_eq_append_iff.1 e
    · exact hfront b hb v (by rw [e2]; exact List.mem_append_right _ hm) hsp
    · cases A with
      | nil => exact hfront b hb v (by rw [← show x :: rest = codeOf s.f b from e2]; exact hm) hsp
      | cons a A =>
        injection e2 with e2 e3
        exact hp (phisOf_phi (b := b) (by rw [e1, e2]; simp))
  | @skip b x rest hd hne ih =>
    intro hb ⟨pre, e⟩
    obtain ⟨h1, h2⟩ := ih hb ⟨pre ++ [x], by rw [e]; simp⟩
    refine ⟨fun hm => ?_, h2⟩
    rcases List.mem_cons.1 hm with rfl | hm
    · refine hd ?_
      unfold dst
      rw [hsp]
      rfl
    · exact h1 hm
  | @phi b d p hd hp hpo ho =>
    intro hb _
    refine ⟨by simp, needed_code (hvc hb) (front hb) (.inr ?_)⟩
    rw [hsu] at hd
    have hdR := hr.flow.succs b hb d hd
    have hpf := h.isPhi hfront hdR hp hpo
    rw [h.phiOps hdR hpf] at ho
    obtain ⟨o, ho, eo⟩ := List.mem_map.1 ho
    have h1 : o.1 = b := congrArg Prod.fst eo
    have h2 := h.renPhi hr hc hv hdR hpf ho (congrArg Prod.snd eo)
    refine .phi hd (by rw [← phisOf_append f d]; exact List.mem_append_left _ hpf) (phisOf_phi hpf) ?_
    rw [← h1, ← h2]
    exact ho
  | @jump b d hd hne ih =>
    intro hb _
    rw [hsu] at hd
    have hdR := hr.flow.succs b hb d hd
    obtain ⟨h1, h2⟩ := ih hdR ⟨[], rfl⟩
    refine ⟨by simp, needed_code (hvc hb) (front hb) (.inr (.jump hd ?_))⟩
    rw [← phisOf_append f d]
    refine needed_front h2 fun z hz e => ?_
    rw [own_mem e, ← h.bodies hdR] at hz
    exact h1 (by rw [← phisOf_append s.f d]; exact List.mem_append_left _ hz)

theorem Prepared.copiesAt (h : Prepared f R s t rn H N M K) (p : Nat) : Loc.copiesAt s.f R p = (Loc.copiesAt f R p).map (fun o => (o.1, renV rn o.2)) := by
  have e : R.flatMap (phisOf s.f) = R.flatMap (phisOf f) := by
    rw [List.flatMap_def, List.flatMap_def]
    congr 1
    exact List.map_congr_left fun b hb => h.bodies hb
  unfold Loc.copiesAt
  rw [e, List.map_flatMap, List.flatMap_def, List.flatMap_def]
  congr 1
  refine List.map_congr_left fun x hx => ?_
  obtain ⟨b, hb, hx⟩ := List.mem_flatMap.1 hx
  rw [h.phiOps hb hx, List.filter_map, List.map_map, List.map_map]
  rfl

/-- The hazards do not occur in the prepared function if they do not in the function. -/
theorem Prepared.safe (h : Prepared f R s t rn H N M K) (hr : Ready f R) (hn : Neat f R) (hfront : ∀ b ∈ R, ∀ x ∈ codeOf s.f b, (s.f.insn x).op ≠ .phi)
    (hS : PhiSafe f R (own f)) : PhiSafe s.f R (dst s.f) := by
  have hsu : ∀ {b}, s.f.succs b = f.succs b := fun {b} => by rw [h.const.grown.succs, h.lowd.succs]
  have back : ∀ {p o}, o ∈ Loc.copiesAt s.f R p → ∃ o' ∈ Loc.copiesAt f R p, o.1 = o'.1 ∧ o.2 = renV rn o'.2 := fun {p o} ho => by
    rw [h.copiesAt] at ho
    obtain ⟨o', ho', e⟩ := List.mem_map.1 ho
    exact ⟨o', ho', by rw [← e], by rw [← e]⟩
  refine ⟨fun p hp o ho o' ho' c hc hoc => ?_, fun p hp o ho c hc hoc hne => ?_, fun p hp z hz hcz hzp o ho => ?_, fun p hp A x v B e o ho ev => ?_, fun p hp c hc x hx => ?_,
    fun c hc x hx => ?_, fun p hp o ho e => ?_⟩
  · obtain ⟨w, hw, e, -⟩ := back ho
    obtain ⟨w', hw', e', -⟩ := back ho'
    rw [h.bodies hc, e'] at *
    rw [e] at hoc
    exact hS.one p hp w hw w' hw' c hc hoc
  · obtain ⟨w, hw, e, -⟩ := back ho
    rw [hsu] at hc
    have hcR := hr.flow.succs p hp c hc
    rw [h.bodies hcR, e] at hoc
    rw [e] at hne
    obtain ⟨cw, hcw, hwp, -⟩ := mem_copiesAt.1 hw
    obtain ⟨-, h2⟩ := h.needed hr hn hfront hcw hwp hne hcR ⟨[], rfl⟩
    refine hS.lost p hp w hw c hc hoc ?_
    rw [← phisOf_append f c]
    refine needed_front h2 fun z hz e => ?_
    rw [own_mem e] at hz
    exact hoc hz
  · obtain ⟨w, hw, e, -⟩ := back ho
    refine Nat.eq_zero_of_not_pos fun hpos => ?_
    rw [e] at hpos
    obtain ⟨cw, hcw, hwp, -⟩ := mem_copiesAt.1 hw
    obtain ⟨y, hy, h1, h2⟩ := h.uses hr hcw hwp hp hz hzp hpos
    obtain ⟨rfl, h3⟩ := h2 hcz
    have := hS.jump p hp y (by rw [← phisOf_append f p]; exact List.mem_append_right _ hy) (by rw [h3]; exact hcz) (by rw [h3]; exact hzp) w hw
    omega
  · rw [h.copiesAt] at e
    obtain ⟨A', C', e1, e2, e3⟩ := List.map_eq_append_iff.1 e
    obtain ⟨a, B', e4, e5, e6⟩ := List.map_eq_cons_iff.1 e3
    rw [← e2] at ho
    obtain ⟨o', ho', eo⟩ := List.mem_map.1 ho
    have hoc : o' ∈ Loc.copiesAt f R p := by rw [e1]; exact List.mem_append_left _ ho'
    have hac : a ∈ Loc.copiesAt f R p := by rw [e1, e4]; simp
    obtain ⟨co, hco, hop, -⟩ := mem_copiesAt.1 hoc
    obtain ⟨ca, hca, hap, haph⟩ := mem_copiesAt.1 hac
    have h7 : o.1 = o'.1 := by rw [← eo]
    have h8 : renV rn a.2 = v := congrArg Prod.snd e5
    have h9 := h.renPhi hr hco hop hca hap haph (by show renV rn a.2 = _; rw [h8, ev, h7])
    refine hS.swap p hp A' a.1 a.2 B' (by rw [e1, e4]) o' ho' h9
  · rw [hsu] at hc
    have hcR := hr.flow.succs p hp c hc
    rw [h.bodies hcR] at hx
    obtain ⟨o, ho, e⟩ := hS.full p hp c hc x hx
    refine ⟨(o.1, renV rn o.2), ?_, e⟩
    rw [h.phiOps hcR hx]
    exact List.mem_map.2 ⟨o, ho, rfl⟩
  · rw [h.bodies hc] at hx
    rw [h.phiOps hc hx, List.map_map]
    exact hS.once c hc x hx
  · obtain ⟨w, hw, -, e2⟩ := back ho
    rw [e2] at e
    refine hS.defined p hp w hw ?_
    cases e3 : w.2 with
    | insn y => rw [e3] at e; cases e
    | const => rw [e3] at e; cases e
    | undef => rfl

end Verif.Fit
