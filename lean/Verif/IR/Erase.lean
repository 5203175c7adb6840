import Verif.IR.Skip
import Verif.Edit.Users
/-!
# Erasing instructions nobody uses
-/
namespace Verif.IR
open Verif Verif.Edit

/-- Instructions other than stores and calls change values only. -/
theorem exec_pure {W : World} {x : Nat} {i : Insn} {σ τ : St} (h : exec W x i σ = some τ) (h1 : i.op ≠ .store)
    (h2 : i.op ≠ .storeraw) (h3 : i.op ≠ .call) : τ.var = σ.var ∧ τ.mem = σ.mem ∧ τ.trace = σ.trace := by
  obtain ⟨op, vals, phi, addr, addrOff, addrKind, aluOp, vrType, bb1, bb2, aux, immKind, imm64⟩ := i
  dsimp only at h1 h2 h3
  have bin : ∀ (o : Option Bpf.AluOp) (w : Option Bool),
      (match vals with
        | [v0, v1] => do
          let o ← o
          let w ← w
          let y ← eval σ v0
          let z ← eval σ v1
          some (σ.set x (Bpf.alu w o y z))
        | _ => none) = some τ → τ.var = σ.var ∧ τ.mem = σ.mem ∧ τ.trace = σ.trace := by
    intro o w h
    split at h
    · simp only [Option.bind_eq_bind, Option.bind_eq_some_iff] at h
      obtain ⟨_, _, _, _, _, _, _, _, h⟩ := h
      cases h; exact ⟨rfl, rfl, rfl⟩
    · cases h
  have b := bin (Flat.aluOp op) (Flat.width aluOp)
  cases op <;> dsimp only [exec] at h <;>
    try (rcases vals with _ | ⟨v0, _ | ⟨v1, _ | ⟨_, _⟩⟩⟩ <;> exact b h)
  case alloc => cases h; exact ⟨rfl, rfl, rfl⟩
  case allocarray => cases h; exact ⟨rfl, rfl, rfl⟩
  case loadimm => cases h; exact ⟨rfl, rfl, rfl⟩
  case load =>
    split at h
    · cases h; exact ⟨rfl, rfl, rfl⟩
    · cases h
  case loadraw =>
    simp only [Option.bind_eq_bind, Option.bind_eq_some_iff] at h
    obtain ⟨_, _, _, _, h⟩ := h
    cases h; exact ⟨rfl, rfl, rfl⟩
  case call => exact absurd rfl h3
  case storeraw => exact absurd rfl h2
  case store => exact absurd rfl h1
  case assign =>
    split at h
    · simp only [Option.bind_eq_bind, Option.bind_eq_some_iff] at h
      obtain ⟨_, _, h⟩ := h
      cases h; exact ⟨rfl, rfl, rfl⟩
    · cases h
  all_goals
    split at h
    · simp only [Option.bind_eq_bind, Option.bind_eq_some_iff] at h
      obtain ⟨_, _, _, _, h⟩ := h
      cases h; exact ⟨rfl, rfl, rfl⟩
    · cases h

/-- A store changes one variable only. -/
theorem exec_store {W : World} {x : Nat} {i : Insn} {σ τ : St} (h : exec W x i σ = some τ) (h1 : i.op = .store) :
    ∃ a v, i.vals = [.insn a, v] ∧ τ.env = σ.env ∧ τ.mem = σ.mem ∧ τ.trace = σ.trace ∧ ∀ y, y ≠ a → τ.var y = σ.var y := by
  obtain ⟨op, vals, phi, addr, addrOff, addrKind, aluOp, vrType, bb1, bb2, aux, immKind, imm64⟩ := i
  dsimp only at h1
  subst h1
  dsimp only [exec] at h
  split at h
  · rename_i a v
    simp only [Option.bind_eq_bind, Option.bind_eq_some_iff] at h
    obtain ⟨_, _, h⟩ := h
    cases h
    exact ⟨a, v, rfl, rfl, rfl, rfl, fun y hy => by simp [hy]⟩
  · cases h

/-- Values named in `P` are all that an instruction reads. -/
structure Reads (P : Nat → Prop) (i : Insn) : Prop extends InsIn P i where
  phi : i.op = .phi → ∀ o ∈ i.phi, VIn P o.2

theorem reads_of_refs {i : Insn} {P : Nat → Prop} (h : ∀ y, ¬ P y → refs i y = 0) : Reads P i := by
  have key : ∀ y, 0 < refs i y → P y := fun y hy => Classical.byContradiction fun hn => by have := h y hn; omega
  refine ⟨⟨?_, ?_⟩, ?_⟩
  · rintro v hv y rfl
    refine key y ?_
    have : 0 < i.vals.count (.insn y) := List.count_pos_iff.2 hv
    unfold refs; omega
  · intro hr y hy
    refine key y ?_
    unfold refs
    have : (if (i.op = .loadraw ∨ i.op = .storeraw) ∧ i.addr = .insn y then 1 else 0) = 1 := if_pos ⟨hr, hy⟩
    omega
  · intro hr o ho y hy
    refine key y ?_
    unfold refs
    rw [if_pos hr]
    have : 0 < i.phi.countP (fun o => o.2 == .insn y) := List.countP_pos_iff.2 ⟨o, ho, by simp [hy]⟩
    omega

theorem Agree.mid {P : Nat → Prop} {σ σ' τ : St} (h : Agree P σ σ') (k : Agree P σ τ) : Agree P τ σ' :=
  ⟨fun y hy => (h.env y hy).trans (k.env y hy).symm, fun y hy => (h.var y hy).trans (k.var y hy).symm,
   h.mem.trans k.mem.symm, h.trace.trans k.trace.symm⟩

theorem phiAssign_agree {f g : Fn} {D : Nat → Bool} {P : Nat → Prop} {σ σ' : St} (h : Agree P σ σ') (p : Nat) :
    ∀ (l : List Nat), (∀ x ∈ l, (D x = true → ¬ P x) ∧ (D x = false → g.insn x = f.insn x ∧ ∀ o ∈ (f.insn x).phi, VIn P o.2)) →
    ∀ e, phiAssign f p σ l = some e →
    ∃ e', phiAssign g p σ' (l.filter (fun x => !D x)) = some e' ∧ ∀ y, P y → e' y = e y
  | [], _, e, he => by
    cases he
    exact ⟨_, rfl, fun y hy => h.env y hy⟩
  | x :: xs, hl, e, he => by
    simp only [phiAssign, Option.bind_eq_bind, Option.bind_eq_some_iff] at he
    obtain ⟨v, hv, e0, h0, he⟩ := he
    cases he
    obtain ⟨e', h1, h2⟩ := phiAssign_agree h p xs (fun y hy => hl y (by simp [hy])) e0 h0
    cases hx : D x with
    | true =>
      rw [List.filter_cons_of_neg (by simp [hx])]
      refine ⟨e', h1, fun y hy => ?_⟩
      have : y ≠ x := fun c => (hl x (by simp)).1 hx (by rw [← c]; exact hy)
      simp [this, h2 y hy]
    | false =>
      rw [List.filter_cons_of_pos (by simp [hx])]
      obtain ⟨hi, hp⟩ := (hl x (by simp)).2 hx
      have hv' : phiVal (g.insn x) p σ' = some v := by rw [hi, phiVal_agree h hp, hv]
      refine ⟨fun y => if y = x then v else e' y, by simp only [phiAssign, hv', h1, Option.bind_eq_bind, Option.bind_some], fun y hy => ?_⟩
      dsimp only
      split
      · rfl
      · exact h2 y hy

/-- Instructions that only change what is not in `P` can be left out if all others read only what is in `P`. -/
theorem skips_agree {W : World} {f g : Fn} {D : Nat → Bool} {P : Nat → Prop}
    (hbody : ∀ b, g.body b = (f.body b).filter (fun x => !D x)) (hentry : g.entry = f.entry) (hsuccs : g.succs = f.succs)
    (hphis : PhisFirst f) (hkeep : ∀ b, ∀ x ∈ f.body b, D x = false → g.insn x = f.insn x ∧ Reads P (f.insn x))
    (hdrop : ∀ b, ∀ x ∈ f.body b, D x = true → straight (f.insn x).op = true ∧ ((f.insn x).op = .phi → ¬ P x) ∧
      ∀ σ τ, (f.insn x).op ≠ .phi → exec W x (f.insn x) σ = some τ → Agree P σ τ) :
    Skips W f g D (fun _ _ => Agree P) := by
  refine ⟨hbody, hentry, hsuccs, hphis, ?_, ?_, ?_, ?_, ?_, ?_⟩
  · intro b x hx hd; rw [(hkeep b x hx hd).1]; exact .inl ⟨rfl, rfl, rfl⟩
  · intro b h _ x r hx hd σ σ' τ hr _ _ he
    have hx := hx.subset (List.mem_cons_self ..)
    obtain ⟨hi, hin⟩ := hkeep b x hx hd
    have := exec_agree hr W x hin.toInsIn
    rw [hi]
    rw [he] at this
    generalize exec W x (f.insn x) σ' = q at this
    cases this with
    | some _ τ' h => exact ⟨τ', rfl, h⟩
  · intro b h _ x r hx hd σ σ' t hr _ ht
    have hx := hx.subset (List.mem_cons_self ..)
    obtain ⟨hi, hin⟩ := hkeep b x hx hd
    rw [hi, taken_agree hr hin.toInsIn, ht]
  · intro b h _ x r hx hd σ σ' v y hr _ hv he
    have hx := hx.subset (List.mem_cons_self ..)
    obtain ⟨hi, hin⟩ := hkeep b x hx hd
    refine ⟨v, by rw [hi, hv], ?_⟩
    rw [eval_agree hr (hin.vals v (by rw [hv]; simp)), he]
  · intro b h _ x r hx hd
    have hx := hx.subset (List.mem_cons_self ..)
    obtain ⟨h1, _, h2⟩ := hdrop b x hx hd
    exact ⟨h1, fun σ σ' τ hr hp he => hr.mid (h2 σ τ hp he)⟩
  · intro p h b _ _ r σ σ' e _ hr he
    obtain ⟨e', h1, h2⟩ := phiAssign_agree (f := f) (g := g) (D := D) hr p (phisOf f b) (fun x hx => by
      obtain ⟨hm, hp⟩ := takeWhile_mem _ _ x hx
      have hp : (f.insn x).op = .phi := by simpa using hp
      refine ⟨fun hd => (hdrop b x hm hd).2.1 hp, fun hd => ?_⟩
      obtain ⟨hi, hin⟩ := hkeep b x hm hd
      exact ⟨hi, hin.phi hp⟩) e he
    exact ⟨e', h1, h2, hr.var, hr.mem, hr.trace⟩

/-! ## The user lists -/

theorem UsersExact.sound {f : Fn} (h : UsersExact f) : UsersSound f := by
  intro y hy
  refine ⟨fun x hx => ⟨Nat.le_of_eq ((h y hy).1 x hx), fun hr => ?_⟩, (h y hy).2⟩
  rw [← (h y hy).1 x hx, List.count_pos_iff] at hr; exact hr

theorem UsersSound.listed {f : Fn} (h : UsersSound f) : UsersListed f := by
  intro y hy
  refine ⟨fun x hx => ⟨fun hm => ?_, ((h y hy).1 x hx).2⟩, (h y hy).2⟩
  have := ((h y hy).1 x hx).1
  have := List.count_pos_iff.2 hm
  omega

theorem erase_sound {f g : Fn} {x : Nat} (ht : Tidy f) (hu : UsersSound f) (hx : InBody f x) (h : erase f x = .ok g) : UsersSound g := by
  obtain ⟨h1, hs, hc⟩ := erase_spec h
  have hl := @erase_live f g x ht hx h
  intro y hy
  rw [hl] at hy
  have hxl : Live f x := .inr (.inr hx)
  refine ⟨?_, ?_⟩
  · intro z hz
    rw [hl] at hz
    rw [hs.insn, hc, if_neg hz.2, Nat.sub_zero]
    refine ⟨((hu y hy.1).1 z hz.1).1, fun hr => ?_⟩
    rw [← List.count_pos_iff, hc, if_neg hz.2, Nat.sub_zero, List.count_pos_iff]
    exact ((hu y hy.1).1 z hz.1).2 hr
  · intro z hz
    rw [← List.count_pos_iff, hc] at hz
    rw [hl]
    have hm : z ∈ f.users y := List.count_pos_iff.1 (by omega)
    refine ⟨(hu y hy.1).2 z hm, ?_⟩
    rintro rfl
    rw [if_pos rfl, ← refs_eq] at hz
    have := ((hu y hy.1).1 z hxl).1
    omega

/-- What the passes start from and keep. -/
structure Ok (f : Fn) : Prop where
  tidy : Tidy f
  users : UsersSound f
  phis : PhisFirst f
  only : ∀ b, b ∉ f.allBbs → f.body b = []

theorem filter_ne_of_not_mem {l : List Nat} {x : Nat} (h : x ∉ l) : l.filter (fun y => !decide (y = x)) = l := by
  rw [List.filter_eq_self]
  intro y hy
  simp only [Bool.not_eq_true', decide_eq_false_iff_not]
  intro e; exact h (by rw [← e]; exact hy)

theorem erase_filter {f g : Fn} {x : Nat} (hf : Ok f) (hx : InBody f x) (h : erase f x = .ok g) (b : Nat) :
    g.body b = (f.body b).filter (fun y => !decide (y = x)) := by
  obtain ⟨h1, hs, hc⟩ := erase_spec h
  obtain ⟨c, hc, hxc⟩ := hx
  have hp := hf.tidy.parent c hc x hxc
  rw [hs.body]
  dsimp only [upd]
  rw [hp]
  split
  · rename_i e
    subst e
    rw [List.Nodup.erase_eq_filter (hf.tidy.nodup b hc)]
    congr 1
  · rename_i hne
    refine (filter_ne_of_not_mem ?_).symm
    intro hm
    by_cases hb : b ∈ f.allBbs
    · exact hne ((hf.tidy.parent b hb x hm).symm.trans hp)
    · rw [hf.only b hb] at hm; cases hm

theorem PhisFirst.filter {f g : Fn} {D : Nat → Bool} (h : PhisFirst f) (hbody : ∀ b, g.body b = (f.body b).filter (fun x => !D x))
    (hop : ∀ b, ∀ x ∈ f.body b, D x = false → (g.insn x).op = (f.insn x).op) : PhisFirst g := by
  intro b x hx
  have := (filter_takeWhile (p := fun x => (f.insn x).op == .phi) (q := fun x => (g.insn x).op == .phi) (d := fun x => !D x)
    (l := f.body b) (fun y hy hd => by rw [hop b y hy (by simpa using hd)]) (fun y hy => by simpa using h b y hy)).2
  unfold codeOf at hx
  rw [hbody, this, List.mem_filter] at hx
  rw [hop b x (mem_codeOf hx.1) (by simpa using hx.2)]
  exact h b x hx.1

theorem erase_ok {f g : Fn} {x : Nat} (hf : Ok f) (hx : InBody f x) (h : erase f x = .ok g) : Ok g := by
  obtain ⟨_, hs, _⟩ := erase_spec h
  refine ⟨erase_tidy hf.tidy hf.users.listed hx h, erase_sound hf.tidy hf.users hx h, ?_, ?_⟩
  · exact hf.phis.filter (erase_filter hf hx h) (fun b y _ _ => by rw [hs.insn])
  · intro b hb
    rw [hs.allBbs] at hb
    rw [erase_filter hf hx h, hf.only b hb]; rfl

/-- Nobody but itself refers to an instruction that could be erased. -/
theorem erase_unused {f g : Fn} {x : Nat} (hf : Ok f) (hx : InBody f x) (h : erase f x = .ok g) {b u : Nat} (hu : u ∈ f.body b)
    (hne : u ≠ x) : refs (f.insn u) x = 0 := by
  obtain ⟨h1, _, _⟩ := erase_spec h
  have hb : b ∈ f.allBbs := Classical.byContradiction fun hn => by rw [hf.only b hn] at hu; cases hu
  have hul : Live f u := .inr (.inr ⟨b, hb, hu⟩)
  have hxl : Live f x := .inr (.inr hx)
  apply Classical.byContradiction
  intro hr
  exact hne (h1 u (((hf.users x hxl).1 u hul).2 (by omega)))

/-- Erasing an instruction without side effects preserves behaviour. -/
theorem erase_preserves {W : World} {f g : Fn} {x : Nat} (hf : Ok f) (hx : InBody f x) (h : erase f x = .ok g)
    (hs : straight (f.insn x).op = true) (h1 : (f.insn x).op ≠ .store) (h2 : (f.insn x).op ≠ .storeraw) (h3 : (f.insn x).op ≠ .call)
    (σ : St) : Preserves W f g σ := by
  obtain ⟨_, hsm, _⟩ := erase_spec h
  have S : Skips W f g (fun y => decide (y = x)) (fun _ _ => Agree (fun y => y ≠ x)) := by
    refine skips_agree (erase_filter hf hx h) hsm.entry hsm.succs hf.phis ?_ ?_
    · intro b u hu hd
      have hne : u ≠ x := by simpa using hd
      refine ⟨by rw [hsm.insn], reads_of_refs fun y hy => ?_⟩
      have : y = x := Classical.not_not.1 hy
      rw [this]; exact erase_unused hf hx h hu hne
    · intro b u hu hd
      have hux : u = x := by simpa using hd
      subst hux
      refine ⟨hs, fun _ hn => hn rfl, fun σ τ _ he => ?_⟩
      obtain ⟨e1, e2, e3⟩ := exec_pure he h1 h2 h3
      exact ⟨fun y hy => exec_env he hy, fun y _ => by rw [e1], e2, e3⟩
  exact S.preserves (fun _ _ σ σ' hr => ⟨hr.mem, hr.trace⟩) σ ⟨fun _ _ => rfl, fun _ _ => rfl, rfl, rfl⟩

end Verif.IR
