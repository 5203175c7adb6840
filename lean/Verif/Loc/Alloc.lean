import Verif.Loc.Recolor
import Verif.Spec.Alloc
import Verif.Live.Props
/-!
# The analyses and the assignment of registers
-/
namespace Verif.Loc
open Verif Verif.IR Verif.Edit
open Verif.Norm (VrPos)

/-- The position in the types of `Verif/Norm/Model.lean`. -/
def posOf (p : RA.VrPos) : VrPos := ⟨p.allocated, Fin.ofNat 11 p.reg, p.spilled⟩

/-- The positions of an allocator state. -/
def posIn (s : RA.St) : Nat → VrPos := fun x => posOf (s.cg x).pos

/-- The conflicts are recorded before registers are assigned. -/
structure Recorded (f : Fn) (R : List Nat) (dst : Nat → Option Nat) (s : RA.St) (reqs : List (Nat × Nat)) : Prop where
  live : ∀ v ∈ Live.insns f R, dst v ≠ none → (s.cg v).fin = false → ∀ b ∈ f.allBbs, ∀ pre x rest, f.body b = pre ++ x :: rest →
    IR.Needed f dst v b rest → ∀ d, dst x = some d → d ≠ v → (v, d) ∈ reqs
  call : ∀ v ∈ Live.insns f R, dst v ≠ none → (s.cg v).fin = false → ∀ b ∈ f.allBbs, b ∈ R → ∀ pre x rest,
    f.body b = pre ++ x :: rest → (f.insn x).op = .call → dst x ≠ some v →
    IR.Needed f dst v b rest → ∀ i, i < 6 → (s.regs i, v) ∈ reqs

/-- What `C35_coloring` and `C37_coalescing_partial` say of the assignment `s2`. -/
structure Assigned (s s2 : RA.St) (reqs : List (Nat × Nat)) : Prop where
  apart : ∀ a b, (a, b) ∈ reqs → ∀ r, (s2.cg a).pos.inReg = some r → (s2.cg b).pos.inReg = some r →
    (s.cg a).pos.inReg = some r ∧ (s.cg b).pos.inReg = some r
  kept : ∀ v, (s.cg v).pos.allocated = true → (s2.cg v).pos = (s.cg v).pos
  new : ∀ v, (s.cg v).pos.allocated = false → (s2.cg v).pos.allocated = true → ∃ r, (s2.cg v).pos.inReg = some r ∧ r < 10

theorem analyse_reqs_ok {f : Fn} (hok : Live.Ok f) {R : List Nat} {dst : Nat → Option Nat} {s s1 : RA.St}
    {l : Live.L} (ha : Live.analyse f R dst s = .ok (l, s1)) : ∃ reqs, RA.conflicts reqs s = .ok s1 ∧ Recorded f R dst s reqs := by
  obtain ⟨l0, h1, h2⟩ := Out.bind_eq_ok.1 ha
  obtain ⟨c, h3, h4⟩ := Out.bind_eq_ok.1 h2
  obtain ⟨s0, h5, h6⟩ := Out.bind_eq_ok.1 h4
  cases h6
  refine ⟨_, h5, ?_, ?_⟩
  · intro v hv hd hf b hb pre x rest e hn d hx hne
    have hout := ((Live.liveness_spec hok h1).2.2 v hv hd hf b hb pre x rest e).2 hn
    exact List.mem_append_left _ ((Live.liveness_spec hok h1).1 x d v hout hx hne)
  · intro v hv hd hf b hb hbR pre x rest e hop hx hn i hi
    have hlive := (Live.liveness_spec hok h1).2.2 v hv hd hf b hb pre x rest e
    have hout := hlive.2 hn
    have hin := hlive.1 (.skip hx hn)
    have hxR : x ∈ Live.insns f R := List.mem_flatMap.2 ⟨b, hbR, by rw [e]; simp⟩
    obtain ⟨b', h7, h8⟩ := (Live.conflictReqs_ok h3).2 x hxR
    exact List.mem_append_right _ (h8 (Live.insnConf_call h7 hop hin hout hi))

theorem analyse_reqs {f : Fn} (ht : Tidy f) (hg : Graph f) (hu : UsersListed f) {R : List Nat} {dst : Nat → Option Nat} {s s1 : RA.St}
    {l : Live.L} (ha : Live.analyse f R dst s = .ok (l, s1)) : ∃ reqs, RA.conflicts reqs s = .ok s1 ∧ Recorded f R dst s reqs :=
  analyse_reqs_ok (Live.ok_of ht hg hu) ha

/-! ## Places -/

theorem placeOf_reg {p : VrPos} (h : p.spilled = 0) : placeOf p = p.reg := by simp [placeOf, h]

theorem placeOf_ne_virt (p : VrPos) (y : Nat) : placeOf p ≠ virt y := by
  have := p.reg.isLt
  unfold placeOf virt
  split
  · omega
  · split <;> omega

theorem placeOf_slot {p : VrPos} (h : p.spilled ≠ 0) : 10 < placeOf p := by
  unfold placeOf
  rw [if_neg h]
  split <;> omega

theorem virt_inj {x y : Nat} (h : virt x = virt y) : x = y := by unfold virt at h; omega

theorem places_alloc {pos : Nat → VrPos} {x : Nat} (h : (pos x).allocated = true) : places pos x = placeOf (pos x) := by
  simp [places, h]

theorem places_free {pos : Nat → VrPos} {x : Nat} (h : (pos x).allocated = false) : places pos x = virt x := by
  simp [places, h]

theorem places_virt {pos : Nat → VrPos} {x y : Nat} (h : places pos x = virt y) : x = y ∧ (pos x).allocated = false := by
  cases ha : (pos x).allocated with
  | true => rw [places_alloc ha] at h; exact absurd h (placeOf_ne_virt _ _)
  | false => rw [places_free ha] at h; exact ⟨virt_inj h, rfl⟩

/-- The renaming of places that the assignment stands for. -/
def rename (k : Nat → Nat) (q : Nat) : Nat := if 13 ≤ q ∧ (q - 13) % 3 = 0 then k ((q - 13) / 3) else q

theorem rename_virt (k : Nat → Nat) (y : Nat) : rename k (virt y) = k y := by
  unfold rename virt
  rw [if_pos (by omega)]
  congr 1
  omega

theorem rename_other {k : Nat → Nat} {q : Nat} (h : ∀ y, q ≠ virt y) : rename k q = q := by
  unfold rename
  rw [if_neg]
  intro ⟨h1, h2⟩
  exact h ((q - 13) / 3) (by unfold virt; omega)

theorem virt_or (q : Nat) : (∃ y, q = virt y) ∨ ∀ y, q ≠ virt y := by
  by_cases h : ∃ y, q = virt y
  · exact .inl h
  · exact .inr (fun y e => h ⟨y, e⟩)

theorem posIn_alloc (s : RA.St) (x : Nat) : (posIn s x).allocated = (s.cg x).pos.allocated := rfl

theorem rename_places {s s2 : RA.St} {reqs : List (Nat × Nat)} (ha : Assigned s s2 reqs) (y : Nat) :
    rename (places (posIn s2)) (places (posIn s) y) = places (posIn s2) y := by
  cases h : (s.cg y).pos.allocated with
  | true =>
    have h2 : (posIn s2 y) = posIn s y := by unfold posIn; rw [ha.kept y h]
    rw [places_alloc (pos := posIn s) h, rename_other (placeOf_ne_virt _), places_alloc (by rw [h2]; exact h), h2]
  | false => rw [places_free (pos := posIn s) h, rename_virt]

/-- The place of a virtual register after the assignment. -/
theorem new_place {s s2 : RA.St} {reqs : List (Nat × Nat)} (ha : Assigned s s2 reqs) {v : Nat} (h : (s.cg v).pos.allocated = false) :
    places (posIn s2) v = virt v ∨ ∃ r, (s2.cg v).pos.inReg = some r ∧ r < 10 ∧ places (posIn s2) v = r := by
  cases h2 : (s2.cg v).pos.allocated with
  | false => exact .inl (places_free (pos := posIn s2) h2)
  | true =>
    obtain ⟨r, h3, h4⟩ := ha.new v h h2
    refine .inr ⟨r, h3, h4, ?_⟩
    obtain ⟨_, h5, h6⟩ := RA.inReg_some.1 h3
    rw [places_alloc (pos := posIn s2) h2, placeOf_reg (show (posIn s2 v).spilled = 0 from h5)]
    show ((Fin.ofNat 11 (s2.cg v).pos.reg : Fin 11) : Nat) = r
    rw [h6]
    exact Nat.mod_eq_of_lt (by omega)

/-! ## Ways from the entry -/

/-- Going back from a point to the entry. -/
theorem back {f : Fn} {R : List Nat} (hf : Flow f R) {P : Nat → List Nat → Prop} {Q : Prop} (h0 : ¬ P f.entry (f.body f.entry))
    (hs : ∀ b ∈ R, ∀ pre x rest, f.body b = pre ++ x :: rest → P b rest → Q ∨ P b (x :: rest))
    (he : ∀ a ∈ R, ∀ b ∈ f.succs a, P b (f.body b) → Q ∨ P a []) {b : Nat} (hb : Conn f b) :
    b ∈ R ∧ ∀ pre rest, f.body b = pre ++ rest → P b rest → Q := by
  have main : ∀ b, b ∈ R → (P b (f.body b) → Q) → ∀ pre rest, f.body b = pre ++ rest → P b rest → Q := by
    intro b hb hst pre
    generalize hn : pre.length = n
    induction n generalizing pre with
    | zero =>
      intro rest e h
      rw [List.length_eq_zero_iff.1 hn, List.nil_append] at e
      rw [← e] at h
      exact hst h
    | succ n ih =>
      intro rest e h
      have hne : pre ≠ [] := by intro h; rw [h] at hn; cases hn
      rw [← List.dropLast_concat_getLast hne, List.append_assoc, List.singleton_append] at e
      rcases hs b hb _ _ rest e h with h | h
      · exact h
      · exact ih _ (by rw [List.length_dropLast, hn]; rfl) _ e h
  induction hb with
  | entry => exact ⟨hf.entry, main _ hf.entry (fun h => absurd h h0)⟩
  | @step a b _ hab ih =>
    have hbR := hf.succs a ih.1 b hab
    refine ⟨hbR, main b hbR (fun h => ?_)⟩
    rcases he a ih.1 b hab h with h | h
    · exact h
    · exact ih.2 _ [] (List.append_nil _).symm h

/-- A value that is needed at a point but not at the entry is defined on the way. -/
theorem defined_on_way {f : Fn} {R : List Nat} {dst : Nat → Option Nat} {pos : Nat → VrPos} (hf : Flow f R)
    (h : AllocReady f R dst pos) {v : Nat} (hv : (pos v).allocated = false) {b : Nat} (hb : b ∈ R) {pre rest : List Nat}
    (e : f.body b = pre ++ rest) (hn : IR.Needed f dst v b rest) : v ∈ Live.insns f R ∧ dst v ≠ none := by
  refine (back (P := IR.Needed f dst v) hf (h.defined v hv) ?_ ?_ (h.blocks b hb).2).2 pre rest e hn
  · intro b hb pre x rest e hn
    by_cases hx : dst x = some v
    · have hxb : x ∈ f.body b := by rw [e]; simp
      have h1 := h.self b hb x hxb
      rw [hx] at h1
      split at h1
      · cases h1
        exact .inl ⟨List.mem_flatMap.2 ⟨b, hb, hxb⟩, by rw [hx]; simp⟩
      · cases h1
    · exact .inr (.skip hx hn)
  · exact fun a _ b hab hn => .inr (.jump hab hn)

/-- Two values that are needed at the same point are in different registers. -/
theorem both_needed {f : Fn} {R : List Nat} {dst : Nat → Option Nat} {s s2 : RA.St} {reqs : List (Nat × Nat)} (hf : Flow f R)
    (h : AllocReady f R dst (posIn s)) (hr : Recorded f R dst s reqs) (ha : Assigned s s2 reqs)
    (hfin : ∀ v, (s.cg v).fin = (s.cg v).pos.allocated) {u v : Nat} (hu : (s.cg u).pos.allocated = false)
    (hv : (s.cg v).pos.allocated = false) (huv : u ≠ v) {b : Nat} (hb : b ∈ R) {pre rest : List Nat}
    (e : f.body b = pre ++ rest) (h1 : IR.Needed f dst u b rest) (h2 : IR.Needed f dst v b rest) {r : Nat} :
    ¬ ((s2.cg u).pos.inReg = some r ∧ (s2.cg v).pos.inReg = some r) := by
  refine (back (P := fun b rest => IR.Needed f dst u b rest ∧ IR.Needed f dst v b rest) hf (fun hp => h.defined v hv hp.2) ?_ ?_
    (h.blocks b hb).2).2 pre rest e ⟨h1, h2⟩
  · intro b hb pre x rest e ⟨h1, h2⟩
    have e' : f.body b = (pre ++ [x]) ++ rest := by rw [e]; simp
    have d1 := defined_on_way hf h hu hb e' h1
    have d2 := defined_on_way hf h hv hb e' h2
    have hne : ∀ w, (s.cg w).pos.allocated = false → ¬ ∃ r, (s.cg w).pos.inReg = some r := by
      intro w hw ⟨r, hr⟩
      rw [RA.inReg_unalloc hw] at hr; cases hr
    by_cases hx : dst x = some u
    · refine .inl (fun hc => hne v hv ⟨r, ?_⟩)
      exact (ha.apart v u (hr.live v d2.1 d2.2 (by rw [hfin]; exact hv) b (h.blocks b hb).1 pre x rest e h2 u hx huv) r hc.2 hc.1).1
    · by_cases hx' : dst x = some v
      · refine .inl (fun hc => hne u hu ⟨r, ?_⟩)
        exact (ha.apart u v (hr.live u d1.1 d1.2 (by rw [hfin]; exact hu) b (h.blocks b hb).1 pre x rest e h1 v hx' (Ne.symm huv)) r hc.1 hc.2).1
      · exact .inr ⟨.skip hx h1, .skip hx' h2⟩
  · exact fun a _ b hab hn => .inr ⟨.jump hab hn.1, .jump hab hn.2⟩

theorem writes_cases {l : Nat → Nat} {x w : Nat} {i : Insn} (h : w ∈ writes l x i) :
    (i.op = .call ∧ w < 6) ∨ (i.op = .store ∧ ∃ a, i.vals.head? = some (.insn a) ∧ w = l a) ∨ (hasResult i.op = true ∧ w = l x) := by
  obtain ⟨op, vals, phi, addr, addrOff, addrKind, aluOp, vrType, bb1, bb2, aux, immKind, imm64⟩ := i
  cases op
  case call => exact .inl ⟨rfl, by simp [writes] at h; omega⟩
  case store =>
    refine .inr (.inl ⟨rfl, ?_⟩)
    simp only [writes, List.mem_flatMap, Option.mem_toList] at h
    obtain ⟨v, h1, h2⟩ := h
    cases v with
    | insn a => exact ⟨a, h1, by simpa [place] using h2⟩
    | _ => cases h2
  all_goals first
    | (simp [writes, Norm.Op.condJmp] at h; done)
    | (refine .inr (.inr ⟨by rfl, ?_⟩); simpa [writes, Norm.Op.condJmp] using h)

/-- An instruction with a result that is not at a place of its own is an `alloc` or a phi. -/
theorem result_writes {l : Nat → Nat} {x : Nat} {i : Insn} (h : hasResult i.op = true) (h1 : i.op ≠ .alloc) (h2 : i.op ≠ .phi) :
    l x ∈ writes l x i := by
  obtain ⟨op, vals, phi, addr, addrOff, addrKind, aluOp, vrType, bb1, bb2, aux, immKind, imm64⟩ := i
  cases op <;> first
    | exact absurd rfl h1
    | exact absurd rfl h2
    | (simp [hasResult, Loc.control, Norm.Op.condJmp] at h; done)
    | simp [writes, Norm.Op.condJmp]

theorem reads_refs {l : Nat → Nat} {i : Insn} {q : Nat} (h : q ∈ reads l i) : q < 6 ∨ ∃ y, q = l y ∧ 0 < refs i y := by
  have key : ∀ vs : List Val, q ∈ vs.flatMap (place l) → ∃ y, q = l y ∧ Val.insn y ∈ vs := by
    intro vs hq
    obtain ⟨v, h1, h2⟩ := List.mem_flatMap.1 hq
    cases v with
    | insn y => exact ⟨y, by simpa [place] using h2, h1⟩
    | _ => cases h2
  have pos : ∀ y, Val.insn y ∈ operands i → 0 < refs i y := fun y hy => by rw [refs_eq]; exact List.count_pos_iff.2 hy
  obtain ⟨op, vals, phi, addr, addrOff, addrKind, aluOp, vrType, bb1, bb2, aux, immKind, imm64⟩ := i
  cases op
  case call => exact .inl (Nat.lt_succ_of_le (argRegs_le h))
  case store =>
    obtain ⟨y, h1, h2⟩ := key _ h
    refine .inr ⟨y, h1, pos y ?_⟩
    have := List.mem_of_mem_tail h2
    simp [operands, this]
  case loadraw =>
    obtain ⟨y, h1, h2⟩ := key [addr] (by simpa [reads] using h)
    refine .inr ⟨y, h1, pos y ?_⟩
    simp only [List.mem_singleton] at h2
    simp [operands, raw, h2]
  case storeraw =>
    have h' : q ∈ (vals ++ [addr]).flatMap (place l) := by simpa [reads] using h
    obtain ⟨y, h1, h2⟩ := key _ h'
    refine .inr ⟨y, h1, pos y ?_⟩
    simpa [operands, raw] using h2
  all_goals
    obtain ⟨y, h1, h2⟩ := key _ h
    refine .inr ⟨y, h1, pos y ?_⟩
    simp [operands, h2]

/-- A needed virtual place is a needed value. -/
theorem needed_value {f : Fn} {R : List Nat} {dst : Nat → Option Nat} {pos : Nat → VrPos} (hf : Flow f R)
    (h : AllocReady f R dst pos) {v b : Nat} {rest : List Nat} (hn : Needed f (places pos) (virt v) b rest) :
    b ∈ R → (∃ pre, f.body b = pre ++ rest) → (∀ x ∈ rest, (f.insn x).op ≠ .phi) →
    (pos v).allocated = false ∧ IR.Needed f dst v b rest := by
  generalize hq : virt v = q at hn
  induction hn with
  | @read b s rest hr =>
    intro hb he hp
    subst hq
    rcases reads_refs hr with h1 | ⟨y, h1, h2⟩
    · unfold virt at h1; omega
    · obtain ⟨rfl, h3⟩ := places_virt h1.symm
      exact ⟨h3, .use (hp s (List.mem_cons_self ..)) h2⟩
  | @skip b s rest hw hn ih =>
    intro hb ⟨pre, he⟩ hp
    have ih' := ih hb ⟨pre ++ [s], by rw [he]; simp⟩ (fun x hx => hp x (List.mem_cons_of_mem _ hx))
    refine ⟨ih'.1, .skip ?_ ih'.2⟩
    intro hd
    have hs : s ∈ f.body b := by rw [he]; simp
    have h1 := h.self b hb s hs
    rw [hd] at h1
    split at h1
    · rename_i hres
      cases h1
      by_cases hal : (f.insn v).op = .alloc
      · rw [← hq] at hn
        exact h.stored b hb pre v rest he hal ih'.1 hn
      · apply hw
        rw [← hq, ← places_free ih'.1]
        exact result_writes hres hal (hp v (List.mem_cons_self ..))
    · cases h1
  | @phi b c x y hc hx ho hy =>
    intro hb he hp
    rw [← hq] at hy
    obtain ⟨rfl, h3⟩ := places_virt hy.symm
    have hxc : x ∈ f.body c ∧ (f.insn x).op = .phi := by
      exact ⟨(List.takeWhile_prefix _).subset hx, phisOf_phi hx⟩
    exact ⟨h3, .phi hc hxc.1 hxc.2 ho⟩
  | @edge b c hc hx hn ih =>
    intro hb he hp
    have hcR := hf.succs b hb c hc
    have ih' := ih hcR ⟨phisOf f c, (phisOf_append f c).symm⟩ (h.front c hcR)
    refine ⟨ih'.1, .jump hc ?_⟩
    rw [← phisOf_append f c]
    have hsub : ∀ x ∈ phisOf f c, x ∈ f.body c ∧ virt v ≠ places pos x := fun x hx' =>
      ⟨(List.takeWhile_prefix _).subset hx', by rw [hq]; exact hx x hx'⟩
    revert hsub
    generalize phisOf f c = ps
    intro hsub
    induction ps with
    | nil => exact ih'.2
    | cons x ps ihp =>
      refine .skip ?_ (ihp (fun y hy => hsub y (List.mem_cons_of_mem _ hy)))
      intro hd
      obtain ⟨h1, h2⟩ := hsub x (List.mem_cons_self ..)
      have h3 := h.self c hcR x h1
      rw [hd] at h3
      split at h3
      · cases h3
        exact h2 (places_free ih'.1).symm
      · cases h3

theorem mem_dropWhile_after {α} {p : α → Bool} {x y : α} {rest : List α} (hx : p x = false) (hy : y ∈ rest) :
    ∀ pre : List α, y ∈ (pre ++ x :: rest).dropWhile p
  | [] => by rw [List.nil_append, List.dropWhile_cons_of_neg (by simp [hx])]; exact List.mem_cons_of_mem _ hy
  | z :: pre => by
    rw [List.cons_append]
    cases hz : p z with
    | true => rw [List.dropWhile_cons_of_pos hz]; exact mem_dropWhile_after hx hy pre
    | false => rw [List.dropWhile_cons_of_neg (by simp [hz])]; simp [hy]

/-- What comes after an instruction that is not a phi is not among the phis at the front. -/
theorem after_plain {f : Fn} {b x : Nat} {pre rest : List Nat} (e : f.body b = pre ++ x :: rest) (hx : (f.insn x).op ≠ .phi) :
    ∀ y ∈ rest, y ∈ codeOf f b := by
  intro y hy
  unfold codeOf
  rw [e]
  exact mem_dropWhile_after (by simpa using hx) hy pre

theorem apart_of {f : Fn} {R : List Nat} {dst : Nat → Option Nat} {s s2 : RA.St} {reqs : List (Nat × Nat)} (hf : Flow f R)
    (h : AllocReady f R dst (posIn s)) (hr : Recorded f R dst s reqs) (ha : Assigned s s2 reqs) (hs : RA.Start s)
    (hfin : ∀ v, (s.cg v).fin = (s.cg v).pos.allocated) (hreg : ∀ v, (s.cg v).pos.allocated = true → (s.cg v).pos.reg ≤ 10)
    (hk : RegsKept f R (places (posIn s)) (places (posIn s2))) :
    Apart f R (places (posIn s)) (rename (places (posIn s2))) := by
  have hnone : ∀ {w r}, (s.cg w).pos.allocated = false → (s.cg w).pos.inReg ≠ some r := by
    intro w r hw hr
    rw [RA.inReg_unalloc hw] at hr; cases hr
  -- a virtual register `v` needed after `x` is not where `x` puts its result
  have own : ∀ b ∈ R, ∀ pre x rest, f.body b = pre ++ x :: rest → hasResult (f.insn x).op = true → ∀ v,
      (s.cg v).pos.allocated = false → IR.Needed f dst v b rest → x ≠ v →
      places (posIn s2) x ≠ places (posIn s2) v := by
    intro b hb pre x rest e hres v hv hn hxv heq
    have hxb : x ∈ f.body b := by rw [e]; simp
    have e' : f.body b = (pre ++ [x]) ++ rest := by rw [e]; simp
    have hd := defined_on_way hf h hv hb e' hn
    have hx : dst x = some x := by rw [h.self b hb x hxb, if_pos hres]
    have hreq := hr.live v hd.1 hd.2 (by rw [hfin]; exact hv) b (h.blocks b hb).1 pre x rest e hn x hx hxv
    rcases new_place ha hv with h1 | ⟨r, h1, h2, h3⟩
    · rw [h1] at heq
      exact hxv (places_virt heq).1
    · refine hnone hv (ha.apart v x hreq r h1 ?_).1
      cases hxa : (s.cg x).pos.allocated with
      | false =>
        rcases new_place ha hxa with h4 | ⟨r', h4, h5, h6⟩
        · rw [h4, h3] at heq
          unfold virt at heq; omega
        · rw [h6, h3] at heq
          rw [h4, heq]
      | true =>
        have hp := ha.kept x hxa
        rw [hp]
        have h4 : (posIn s2 x) = posIn s x := by unfold posIn; rw [hp]
        rw [places_alloc (pos := posIn s2) (by rw [h4]; exact hxa), h4, h3] at heq
        by_cases hsp : (s.cg x).pos.spilled = 0
        · rw [placeOf_reg (show (posIn s x).spilled = 0 from hsp)] at heq
          have h5 : ((Fin.ofNat 11 (s.cg x).pos.reg : Fin 11) : Nat) = (s.cg x).pos.reg :=
            Nat.mod_eq_of_lt (by have := hreg x hxa; omega)
          have h6 : ((posIn s x).reg : Nat) = (s.cg x).pos.reg := h5
          rw [h6] at heq
          exact RA.inReg_some.2 ⟨hxa, hsp, heq⟩
        · have := placeOf_slot (p := posIn s x) hsp
          omega
  refine ⟨fun q hq => rename_other (fun y => by unfold virt; omega), ?_, ?_⟩
  · intro b hb pre x rest e q hn w hw hwq hc
    have hxb : x ∈ f.body b := by rw [e]; simp
    have e' : f.body b = (pre ++ [x]) ++ rest := by rw [e]; simp
    have hctl : (f.insn x).op ≠ .phi := by
      intro hp
      rcases writes_cases hw with ⟨h1, _⟩ | ⟨h1, _⟩ | ⟨_, _⟩
      · rw [hp] at h1; cases h1
      · rw [hp] at h1; cases h1
      · rw [writes_control (by rw [hp]; rfl)] at hw; cases hw
    have hcode : ∀ y ∈ rest, (f.insn y).op ≠ .phi := fun y hy => h.front b hb y (after_plain e hctl y hy)
    rcases virt_or q with ⟨v, rfl⟩ | hq
    · obtain ⟨hv, hnv⟩ := needed_value hf h hn hb ⟨_, e'⟩ hcode
      have hv' : (s.cg v).pos.allocated = false := hv
      rw [rename_virt] at hc
      exfalso
      rcases writes_cases hw with ⟨h1, h2⟩ | ⟨h1, a, h2, rfl⟩ | ⟨h1, rfl⟩
      · -- a call
        rw [rename_other (fun y => by unfold virt; omega)] at hc
        have hd := defined_on_way hf h hv hb e' hnv
        have hx : dst x ≠ some v := by rw [h.self b hb x hxb, h1]; simp [hasResult, Loc.control]
        rcases new_place ha hv' with h3 | ⟨r, h3, h4, h5⟩
        · rw [h3] at hc; unfold virt at hc; omega
        · rw [h5] at hc
          subst hc
          have hreq := hr.call v hd.1 hd.2 (by rw [hfin]; exact hv') b (h.blocks b hb).1 hb pre x rest e h1 hx hnv w h2
          have hrg := (hs.regs w (by unfold RA.colors; omega)).1
          have hrg2 : (s2.cg (s.regs w)).pos.inReg = some w := by
            rw [ha.kept _ (RA.inReg_some.1 hrg).1]; exact hrg
          exact hnone hv' (ha.apart _ v hreq w hrg2 h3).2
      · -- a store
        rw [rename_places ha] at hc
        have hav := h.vars b hb x hxb h1 a h2
        cases haa : (s.cg a).pos.allocated with
        | true =>
          have hp : posIn s2 a = posIn s a := by unfold posIn; rw [ha.kept a haa]
          rw [places_alloc (pos := posIn s2) (by rw [hp]; exact haa), hp] at hc
          rw [places_alloc (pos := posIn s) haa] at hav
          rcases new_place ha hv' with h3 | ⟨r, h3, h4, h5⟩
          · rw [h3] at hc; exact placeOf_ne_virt _ _ hc
          · rw [h5] at hc; omega
        | false =>
          have hne : a ≠ v := by
            rintro rfl
            exact hwq (places_free (pos := posIn s) haa)
          have hna : IR.Needed f dst a b (x :: rest) := by
            refine .use hctl ?_
            rw [refs_eq]
            refine List.count_pos_iff.2 ?_
            have : Val.insn a ∈ (f.insn x).vals := List.mem_of_mem_head? h2
            simp [operands, this]
          have hx : dst x ≠ some v := by rw [h.self b hb x hxb, h1]; simp [hasResult, Loc.control]
          have both := fun r => both_needed (r := r) hf h hr ha hfin haa hv' hne hb e hna (.skip hx hnv)
          rcases new_place ha hv' with h3 | ⟨r, h3, h4, h5⟩
          · rw [h3] at hc
            exact hne (places_virt hc).1
          · rcases new_place ha haa with h6 | ⟨r', h6, h7, h8⟩
            · rw [h6, h5] at hc; unfold virt at hc; omega
            · rw [h8, h5] at hc
              subst hc
              exact both _ ⟨h6, h3⟩
      · -- a result
        rw [rename_places ha] at hc
        refine own b hb pre x rest e h1 v hv' hnv ?_ hc
        rintro rfl
        exact hwq (places_free (pos := posIn s) hv')
    · rw [rename_other hq] at hc
      rcases virt_or w with ⟨y, rfl⟩ | hw'
      · rw [rename_virt] at hc
        have hy : ∃ z, places (posIn s) z = virt y := by
          rcases writes_cases hw with ⟨_, h2⟩ | ⟨_, a, _, h2⟩ | ⟨_, h2⟩
          · unfold virt at h2; omega
          · exact ⟨a, h2.symm⟩
          · exact ⟨x, h2.symm⟩
        obtain ⟨z, hz⟩ := hy
        obtain ⟨rfl, hz2⟩ := places_virt hz
        rcases new_place ha (show (s.cg z).pos.allocated = false from hz2) with h3 | ⟨r, h3, h4, h5⟩
        · rw [h3] at hc; exact absurd hc.symm (hq z)
        · rw [h5] at hc
          subst hc
          exact hk.insns b hb pre x rest e r h4 hn z (by rw [hz]; exact hw) (by rw [hz]; unfold virt; omega) h5
      · rw [rename_other hw'] at hc
        exact absurd hc hwq
  · intro b hb q hn xs x ys e hxq hc
    have hx : x ∈ phisOf f b := by rw [e]; simp
    have hxb : x ∈ f.body b := (List.takeWhile_prefix _).subset hx
    rw [rename_places ha] at hc
    rcases virt_or q with ⟨v, rfl⟩ | hq
    · obtain ⟨hv, hnv⟩ := needed_value hf h hn hb ⟨phisOf f b, (phisOf_append f b).symm⟩ (h.front b hb)
      have hv' : (s.cg v).pos.allocated = false := hv
      by_cases hvy : v ∈ ys
      · exact ⟨v, hvy, places_free (pos := posIn s) hv'⟩
      · exfalso
        rw [rename_virt] at hc
        have eb : f.body b = xs ++ x :: (ys ++ codeOf f b) := by
          rw [← phisOf_append f b, e]; simp
        have hnv' : IR.Needed f dst v b (ys ++ codeOf f b) := by
          have hys : ∀ y ∈ ys, y ∈ f.body b := fun y hy => by rw [eb]; simp [hy]
          clear e eb
          induction ys with
          | nil => exact hnv
          | cons y ys ih =>
            refine .skip ?_ (ih (fun hy => hvy (List.mem_cons_of_mem _ hy)) (fun z hz => hys z (List.mem_cons_of_mem _ hz)))
            rw [h.self b hb y (hys y (List.mem_cons_self ..))]
            split
            · intro hh; cases hh; exact hvy (List.mem_cons_self ..)
            · simp
        refine own b hb xs x _ eb (by rw [phisOf_phi hx]; rfl) v hv' hnv' ?_ hc
        rintro rfl
        exact hxq (places_free (pos := posIn s) hv')
    · exfalso
      rw [rename_other hq] at hc
      cases hxa : (s.cg x).pos.allocated with
      | true =>
        have hp : posIn s2 x = posIn s x := by unfold posIn; rw [ha.kept x hxa]
        rw [places_alloc (pos := posIn s2) (by rw [hp]; exact hxa), hp] at hc
        rw [places_alloc (pos := posIn s) hxa] at hxq
        exact hxq hc
      | false =>
        rcases new_place ha hxa with h3 | ⟨r, h3, h4, h5⟩
        · rw [h3] at hc; exact hq x hc.symm
        · rw [h5] at hc
          subst hc
          exact hk.phis b hb r h4 hn x hx (by rw [places_free (pos := posIn s) hxa]; unfold virt; omega) h5

end Verif.Loc
