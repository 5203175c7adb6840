import Verif.Cg.SpillFresh
import Verif.Spec.Spill
/-!
# Spilling several instructions
-/
namespace Verif.Cg
open Verif Verif.IR Verif.Edit Verif.Loc
open Verif.Norm (VrPos)
open Verif.RemPhi (All2)

theorem sameOut_trans {a b c : Loc.Res} (h1 : Loc.SameOut a b) (h2 : Loc.SameOut b c) : Loc.SameOut a c := by
  cases h1 with
  | done x τ τ' e1 e2 => cases h2 with | done _ _ τ2 e3 e4 => exact .done x _ _ (e3.trans e1) (e4.trans e2)
  | thrown τ τ' e1 e2 => cases h2 with | thrown _ τ2 e3 e4 => exact .thrown _ _ (e3.trans e1) (e4.trans e2)
  | running b c r s τ τ' e1 e2 => cases h2 with | running _ c2 _ s2 _ τ2 e3 e4 => exact .running _ _ _ _ _ _ (e3.trans e1) (e4.trans e2)

theorem keeps_trans {W : World} {f g h : Fn} {l k m : Nat → Nat} {τ : Loc.St} (h1 : Loc.Keeps W f l g k τ) (h2 : Loc.Keeps W g k h m τ) : Loc.Keeps W f l h m τ := by
  intro n
  rcases h1 n with e | ⟨n1, hn1, hs⟩
  · exact .inl e
  · rcases h2 n1 with e | ⟨n2, hn2, hs2⟩
    · rw [e] at hs
      generalize Loc.runFn W f l n τ = r at hs
      cases hs
    · exact .inr ⟨n2, by omega, sameOut_trans hs hs2⟩

theorem keeps_refl {W : World} {f : Fn} {l : Nat → Nat} {τ : Loc.St} : Loc.Keeps W f l f l τ := by
  intro n
  cases e : Loc.runFn W f l n τ with
  | done x τ' => exact .inr ⟨n, Nat.le_refl _, by rw [e]; exact .done _ _ _ rfl rfl⟩
  | thrown τ' => exact .inr ⟨n, Nat.le_refl _, by rw [e]; exact .thrown _ _ rfl rfl⟩
  | running b r τ' => exact .inr ⟨n, Nat.le_refl _, by rw [e]; exact .running _ _ _ _ _ _ rfl rfl⟩
  | stuck => exact .inl rfl

/-! ## Places that are needed -/

theorem reads_place {l : Nat → Nat} {i : Insn} {q : Nat} (h : q ∈ reads l i) : q ≤ 5 ∨ ∃ y, q = l y := by
  have pl : ∀ w : Val, q ∈ place l w → ∃ y, q = l y := by
    intro w hw
    cases w with
    | insn y => exact ⟨y, by simpa [place] using hw⟩
    | const => simp [place] at hw
    | undef => simp [place] at hw
  have fm : ∀ ws : List Val, q ∈ ws.flatMap (place l) → ∃ y, q = l y := by
    intro ws hw
    obtain ⟨w, -, hw⟩ := List.mem_flatMap.1 hw
    exact pl w hw
  unfold reads at h
  split at h
  · exact .inl (argRegs_le h)
  · exact .inr (fm _ h)
  · exact .inr (pl _ h)
  · rcases List.mem_append.1 h with h | h
    · exact .inr (fm _ h)
    · exact .inr (pl _ h)
  · exact .inr (fm _ h)

theorem needed_place {f : Fn} {l : Nat → Nat} {q b : Nat} {r : List Nat} (h : Loc.Needed f l q b r) : q ≤ 5 ∨ ∃ y, q = l y := by
  induction h with
  | read h => exact reads_place h
  | skip _ _ ih => exact ih
  | phi _ _ _ h => exact .inr ⟨_, h⟩
  | edge _ _ _ ih => exact ih

theorem writes_mono {l k : Nat → Nat} {x : Nat} {i : Insn} {q : Nat} (hk : ∀ y, l y = q → k y = q) (h : q ∈ Loc.writes l x i) : q ∈ Loc.writes k x i := by
  unfold Loc.writes at h ⊢
  split at h
  · exact h
  · obtain ⟨w, h1, h2⟩ := List.mem_flatMap.1 h
    refine List.mem_flatMap.2 ⟨w, h1, ?_⟩
    cases w with
    | insn y => simp [place] at h2 ⊢; exact (hk y h2.symm).symm
    | const => simp [place] at h2
    | undef => simp [place] at h2
  · simp at h
  · simp at h
  · simp at h
  · simp at h
  · simp at h
  · simp at h
  · split at h
    · simp at h
    · split
      · contradiction
      · rw [List.mem_singleton] at h ⊢
        exact (hk x h.symm).symm

theorem needed_mono {f : Fn} {l k : Nat → Nat} {q : Nat} (hk : ∀ y, l y = q ↔ k y = q) {b : Nat} {r : List Nat} (h : Loc.Needed f k q b r) : Loc.Needed f l q b r := by
  induction h with
  | @read b x r h =>
    refine .read (reads_back (t := id) (by rw [Edit.mapOps_id (g := id) (fun _ _ => rfl)]; exact h) (fun w _ hw => ?_))
    exact place_live (t := id) hw (fun y e1 e2 => ⟨e1, e2.symm.trans ((hk y).2 e2.symm).symm⟩)
  | skip h1 _ ih => exact .skip (fun h => h1 (writes_mono (fun y => (hk y).1) h)) ih
  | phi h1 h2 h3 h4 => exact .phi h1 h2 h3 ((hk _).2 h4.symm).symm
  | edge h1 h2 _ ih => exact .edge h1 (fun x hx e => h2 x hx ((hk x).1 e.symm).symm) ih

/-! ## A variable gets a slot -/

theorem alloc_keeps {f : Fn} {R : List Nat} {pos : Nat → VrPos} {v : Nat} {off r : Int} (hf : Flow f R) (hp : PosOk pos off) (hr : r < off) (hv : (pos v).allocated = false)
    (hn : ¬ Loc.Needed f (places pos) (places pos v) f.entry (f.body f.entry)) (W : World) (τ : Loc.St) :
    Loc.Keeps W f (places pos) f (places (upd pos v { pos v with allocated := true, spilled := r })) τ := by
  have h0 := hp.1
  have lv : places pos v = virt v := by unfold places; rw [hv]; rfl
  have hc : places (upd pos v { pos v with allocated := true, spilled := r }) =
      fun y => (fun q => if q = virt v then 11 + 3 * r.natAbs else q) (places pos y) := by
    funext y
    dsimp only
    by_cases e : y = v
    · subst e
      rw [lv, if_pos rfl]
      unfold places
      rw [upd_same]
      unfold placeOf
      dsimp only
      rw [if_pos rfl, if_neg (by omega), if_pos (by omega)]
    · rw [if_neg (fun h => e (places_virt h).1)]
      unfold places
      rw [upd_ne _ _ e]
  have hA : Apart f R (places pos) (fun q => if q = virt v then 11 + 3 * r.natAbs else q) := by
    refine ⟨fun q hq => by rw [if_neg (by unfold virt; omega)], fun b _ pre x rest _ q hq w hw hwq e => ?_, fun b _ q hq xs x ys _ hxq e => ?_⟩
    · exfalso
      have hwl : w ≤ 5 ∨ ∃ y, w = places pos y := by
        rcases writes_cases hw with h | h | ⟨_, y, _, h⟩
        · exact .inl h
        · exact .inr ⟨_, h⟩
        · exact .inr ⟨_, h⟩
      have hql := needed_place hq
      have fr : ∀ z, (z ≤ 5 ∨ ∃ y, z = places pos y) → z ≠ 11 + 3 * r.natAbs := by
        rintro z (h | ⟨y, h⟩)
        · omega
        · rw [h]; exact slot_new hp hr y
      split at e
      · split at e
        · rename_i e1 e2; exact hwq (e1.trans e2.symm)
        · exact fr q hql e.symm
      · split at e
        · exact fr w hwl e
        · exact hwq e
    · exfalso
      have hql := needed_place hq
      have fr : ∀ z, (z ≤ 5 ∨ ∃ y, z = places pos y) → z ≠ 11 + 3 * r.natAbs := by
        rintro z (h | ⟨y, h⟩)
        · omega
        · rw [h]; exact slot_new hp hr y
      split at e
      · split at e
        · rename_i e1 e2; exact hxq (e1.trans e2.symm)
        · exact fr q hql e.symm
      · split at e
        · exact fr _ (.inr ⟨x, rfl⟩) e
        · exact hxq e
  intro n
  rw [hc]
  have := run_ren (W := W) hf hA n hf.entry (rest := f.body f.entry) ⟨[], rfl⟩ (τ := τ) (τ' := τ) ⟨fun q hq => by
    rw [if_neg]
    intro e
    rw [e, ← lv] at hq
    exact hn hq, rfl, rfl⟩
  rcases this with h | h
  · exact .inl h
  · exact .inr ⟨n, Nat.le_refl _, h⟩

/-! ## One instruction -/

/-- No virtual register is read before it is written. -/
def FreshV (s : Cg) : Prop := ∀ n, ¬ Loc.Needed s.f (places s.pos) (virt n) s.f.entry (s.f.body s.f.entry)

theorem hasResult_jmp {o : Norm.Op} (h : hasResult o = true) : isJmp o = false ∧ o ≠ .call := by
  cases o <;> simp_all [hasResult, isJmp, Loc.control, Norm.Op.condJmp]

/-- The result of spilling `v`. -/
structure Step (s : Cg) (v : Nat) (R : List Nat) (off : Int) (s' : Cg) : Prop where
  base : Base s'.f R
  pos : PosOk s'.pos (off - 8)
  fresh : FreshV s'
  keeps : ∀ W : World, (∀ a, InBody s'.f a → s'.f.insn a = mkAlloc .t64 → W.wid a = 8) → ∀ τ, Loc.Keeps W s.f (places s.pos) s'.f (places s'.pos) τ
  var : (s.f.insn v).op = .alloc → (s'.pos v).allocated = true ∧ (s'.pos v).spilled = off - 8
  through : (s.f.insn v).op ≠ .alloc → Through s' (off - 8) v
  next : ∀ x, x ≠ v → Victim s x → Victim s' x
  op : ∀ x, InBody s.f x → (s'.f.insn x).op = (s.f.insn x).op ∧ InBody s'.f x
  old : ∀ x, x ≠ v → InBody s.f x → s'.pos x = s.pos x
  var64 : ∀ a, InBody s.f a → s.f.insn a = mkAlloc .t64 → s'.f.insn a = mkAlloc .t64
  stay : ∀ o x, x ≠ v → Through s o x → Through s' o x

theorem posOk_upd {pos : Nat → VrPos} {off r : Int} (hp : PosOk pos off) (hr : r < off) (v : Nat) :
    PosOk (upd pos v { pos v with allocated := true, spilled := r }) r := by
  have h0 := hp.1
  refine ⟨by omega, fun x hx => ?_⟩
  by_cases e : x = v
  · subst e; rw [upd_same]; exact Int.le_refl _
  · rw [upd_ne _ _ e] at hx ⊢
    have := hp.2 x hx; omega

theorem fresh_upd {s : Cg} (hF : FreshV s) (v : Nat) (r : Int) : FreshV ⟨s.f, upd s.pos v { s.pos v with allocated := true, spilled := r }⟩ := by
  intro n hn
  dsimp only at hn
  by_cases e : n = v
  · rw [e] at hn
    rcases needed_place hn with h | ⟨y, h⟩
    · have := virt_big v; omega
    · obtain ⟨rfl, h⟩ := places_virt h.symm
      rw [upd_same] at h
      cases h
  · refine hF n (needed_mono (fun y => ?_) hn)
    by_cases e2 : y = v
    · rw [e2]
      constructor
      · intro h; exact absurd (places_virt h).1.symm e
      · intro h; exact absurd (places_virt h).1.symm e
    · unfold places
      rw [upd_ne _ _ e2]

theorem step_alloc {s : Cg} {R : List Nat} {v : Nat} {off : Int} (hB : Base s.f R) (hp : PosOk s.pos off) (hF : FreshV s) (hv : Victim s v) (ho : (s.f.insn v).op = .alloc) :
    Step s v R off ⟨s.f, upd s.pos v { s.pos v with allocated := true, spilled := newSpill off 8 }⟩ := by
  have h0 := hp.1
  have lv : places s.pos v = virt v := by unfold places; rw [hv.free]; rfl
  refine ⟨hB, posOk_upd hp (by unfold newSpill; omega) v, fresh_upd hF v _, fun W _ τ => alloc_keeps hB.flow hp (by unfold newSpill; omega) hv.free (by rw [lv]; exact hF v) W τ, fun _ => ?_, fun h => absurd ho h, fun x hx hxv => ?_,
    fun x hx => ⟨rfl, hx⟩, fun x hx _ => upd_ne _ _ hx, fun _ _ h => h, fun o x hx => ?_⟩
  · dsimp only; rw [upd_same]; exact ⟨rfl, rfl⟩
  · exact ⟨hxv.inb, hxv.op, by dsimp only; rw [upd_ne _ _ hx]; exact hxv.free⟩
  · rintro ⟨a, st, h1, h2, h3, h4, h5, h6, h8⟩
    have hav : a ≠ v := fun e => by rw [e, hv.free] at h5; cases h5
    refine ⟨a, st, h1, h2, h3, h4, ?_, ?_, h8⟩ <;> dsimp only <;> rw [upd_ne _ _ hav] <;> assumption

theorem SpInv.filter_code {f : Fn} {R : List Nat} {pos0 : Nat → VrPos} {v : Nat} {s : Cg} {H N M T : Nat → List Nat} {off : Int}
    (h : SpInv f pos0 ⟨true, 0, off - 8⟩ v (fun _ _ => False) s H N M T) (hB : Base f R) {b : Nat} (hb : b ∈ f.allBbs) :
    (codeOf s.f b).filter (· < f.next) = codeOf f b := by
  have hlt : ∀ x ∈ codeOf f b, x < f.next := fun x hx =>
    hB.tidy.lt x (.inr (.inr ⟨b, hb, by rw [← phisOf_append f b]; exact List.mem_append_right _ hx⟩))
  rw [(h.code hb).2, List.filter_append, List.filter_append]
  have e1 : (H b).filter (· < f.next) = [] := by
    rw [List.filter_eq_nil_iff]
    intro n hn
    have := h.grown.newB b n (List.mem_append_left _ hn)
    simp; omega
  have e2 : (T b).filter (· < f.next) = [] := by
    rw [List.filter_eq_nil_iff]
    intro n hn
    have := h.grown.newB b n (List.mem_append_right _ hn)
    simp; omega
  have e3 : ∀ l : List Nat, (∀ x ∈ l, x < f.next) → (ex N M l).filter (· < f.next) = l := by
    intro l
    induction l with
    | nil => intro _; rfl
    | cons x l ih =>
      intro hl
      rw [ex_cons, List.filter_append, List.filter_cons_of_pos (by simpa using hl x List.mem_cons_self), List.filter_append, ih (fun y hy => hl y (List.mem_cons_of_mem _ hy))]
      have e1 : (N x).filter (· < f.next) = [] := by
        rw [List.filter_eq_nil_iff]
        intro n hn
        have := h.grown.newI x n (List.mem_append_left _ hn)
        simp; omega
      have e2 : (M x).filter (· < f.next) = [] := by
        rw [List.filter_eq_nil_iff]
        intro n hn
        have := h.grown.newI x n (List.mem_append_right _ hn)
        simp; omega
      rw [e1, e2]; rfl
  rw [e1, e2, e3 _ hlt]
  simp

theorem step_insn {s : Cg} {R : List Nat} {v : Nat} {off : Int} (hB : Base s.f R) (hp : PosOk s.pos off) (hF : FreshV s) (hv : Victim s v) (ho : (s.f.insn v).op ≠ .alloc) :
    ∃ s', spillOne v s off = .ok (s', off - 8) ∧ Step s v R off s' := by
  have hsp : Spills s.f v := ⟨hv.inb, ho, (hasResult_jmp hv.op.1).1⟩
  have h0 := hp.1
  obtain ⟨g, H, h1, hnx, h2, h3⟩ := SpInv.start (pos0 := s.pos) hB hsp ⟨true, 0, off - 8⟩
  obtain ⟨s', N, T, h4, h5, h6⟩ := SpInv.reloads hB hsp (s.f.users v) _ _ _ h2 (fun u hu => hB.users v (.inr (.inr hv.inb)) u hu) (fun w hw => by
    by_cases e : 0 < refs (s.f.insn w) v
    · exact .inl (hB.cover v w hw (fun h => h) e)
    · dsimp only; rw [h3 w (hB.tidy.lt w hw)]; exact .inr (by omega))
  have hbbs := h5.grown.allBbs
  have inb : ∀ x, InBody s.f x → InBody s'.f x := by
    rintro x ⟨b, hb, hx⟩
    exact ⟨b, by rw [hbbs]; exact hb, h5.grown.stay hb hx⟩
  have hop : ∀ x, InBody s.f x → (s'.f.insn x).op = (s.f.insn x).op := fun x ⟨b, hb, hx⟩ => h5.op hb hx
  have hlt : ∀ x, InBody s.f x → x < s.f.next := fun x hx => hB.tidy.lt x (.inr (.inr hx))
  have hpos : ∀ x, InBody s.f x → s'.pos x = s.pos x := fun x hx => h5.pos x (hlt x hx)
  have hnx2 := h5.next2
  have hA : InBody s'.f s.f.next := by
    rcases h5.liveA with e | e | e
    · rw [h5.grown.sp] at e
      have := hB.tidy.lt s.f.next (.inl e); omega
    · rw [h5.grown.args] at e
      have := hB.tidy.lt s.f.next (.inr (.inl e)); omega
    · exact e
  have hS : InBody s'.f (s.f.next + 1) := by
    obtain ⟨b, hb, hm⟩ := inBody_split hv.inb
    refine ⟨b, by rw [hbbs]; exact hb, ?_⟩
    rw [h5.grown.body b hb]
    rcases hm with hm | hm
    · have := h5.stored b hb hm
      simp [this]
    · have hM := h5.aft v
      rw [if_pos ⟨rfl, hB.front b hb v hm⟩] at hM
      refine List.mem_append_right _ (List.mem_append_right _ (List.mem_append_left _ ?_))
      exact List.mem_flatMap.2 ⟨v, hm, by dsimp only; rw [if_pos ⟨rfl, hB.front b hb v hm⟩]; simp⟩
  -- live instructions of the result
  have lc : ∀ w, Live s'.f w → Live s.f w ∨ w = s.f.next ∨ w = s.f.next + 1 ∨ (s.f.next + 2 ≤ w ∧ w < s'.f.next) := by
    rintro w (e | e | ⟨b, hb, hx⟩)
    · exact .inl (.inl (by rw [← h5.grown.sp]; exact e))
    · exact .inl (.inr (.inl (by rw [← h5.grown.args]; exact e)))
    · rw [hbbs] at hb
      rcases h5.cases hb hx with hx | hx
      · exact .inl (.inr (.inr ⟨b, hb, hx⟩))
      · exact .inr hx
  -- references to other instructions
  have hrefs : ∀ x w, x ≠ v → x < s.f.next → Live s.f w → 0 < refs (s'.f.insn w) x → 0 < refs (s.f.insn w) x := by
    intro x w hxv hxl hw hr
    by_cases hi : InBody s.f w
    · obtain ⟨b, hb, hx⟩ := hi
      rcases h5.insn_old hB hb hx with ⟨t, e, -, ht⟩ | ⟨hph, q, e, hq⟩
      · rw [e, refs_pos, operands_mapOps] at hr
        rw [refs_pos]
        obtain ⟨y, hy, e2⟩ := List.mem_map.1 hr
        rcases ht with ht | ⟨n, n1, n2, rfl⟩
        · rw [ht] at e2; rw [← e2]; exact hy
        · unfold sub at e2
          by_cases e3 : y = .insn v
          · rw [if_pos e3] at e2
            have := Val.insn.inj e2
            omega
          · rw [if_neg e3] at e2
            rw [← e2]; exact hy
      · have hpo := phisOf_phi hph
        rw [refs_pos] at hr ⊢
        rw [e] at hr
        simp only [operands, hpo, if_true, List.mem_append, List.mem_map] at hr ⊢
        rcases hr with (hr | ⟨o, ho, e2⟩) | hr
        · exact .inl (.inl hr)
        · obtain ⟨o0, h1, h2, h3⟩ := all2_right hq ho
          rcases h3 with h3 | ⟨-, n, h3, h4, -⟩
          · exact .inl (.inr ⟨o0, h1, by rw [← h3]; exact e2⟩)
          · rw [h3] at e2
            have := Val.insn.inj e2
            omega
        · exact .inr hr
    · rw [h5.fixed w hw hi] at hr; exact hr
  have hvlt := hlt v hv.inb
  refine ⟨s', ?_, h5.base hB hsp, ⟨by omega, fun x hx => ?_⟩, fun n hn => ?_, fun W hW τ => ?_, fun h => absurd h ho, fun _ => ?_, fun x hxv hx => ?_, fun x hx => ⟨hop x hx, inb x hx⟩,
    fun x _ hx => hpos x hx, fun a ha e => ?_, fun o x hxv => ?_⟩
  · unfold spillOne
    rw [if_neg (fun h => h.elim (hasResult_jmp hv.op.1).2 hv.op.2), if_neg ho]
    dsimp only
    rw [h1, Out.ok_bind, hnx]
    have : newSpill off 8 = off - 8 := rfl
    rw [this, h4, Out.ok_bind]
  · by_cases e1 : x < s.f.next
    · rw [h5.pos x e1] at hx ⊢
      have := hp.2 x hx; omega
    · by_cases e2 : x = s.f.next
      · rw [e2, h5.posA]; exact Int.le_refl _
      · by_cases e3 : x < s'.f.next
        · rw [h5.posN x (by omega) e3] at hx; cases hx
        · rw [h5.far x (by omega)] at hx ⊢
          have := hp.2 x hx; omega
  · rcases Nat.lt_or_ge n s.f.next with hnl | hnl
    · by_cases e : n = v
      · rw [e] at hn
        exact h5.freshV hB hsp hp hv.free hv.op.1 h6 hn
      · have lv : places s'.pos v = virt v := by unfold places; rw [hpos v hv.inb, hv.free]; rfl
        have hent := hB.sub _ hB.flow.entry
        have := h5.needed hB hsp hp (q := virt n) (fun hN => by
          rw [h5.placeA hp] at hN
          rcases hN with h | ⟨m, h, h'⟩
          · unfold virt at h; omega
          · have := virt_inj h'; omega) (by rw [lv]; intro h; exact e (virt_inj h)) hn (by rw [h5.grown.entry]; exact hB.flow.entry) (fun _ h => h)
        rw [h5.grown.entry] at this
        have eb : s'.f.body s.f.entry = codeOf s'.f s.f.entry := by
          rw [← phisOf_append s'.f s.f.entry, (h5.code hent).1, hB.entry0]; rfl
        have eb2 : s.f.body s.f.entry = codeOf s.f s.f.entry := by
          conv => lhs; rw [← phisOf_append s.f s.f.entry, hB.entry0]
          rfl
        rw [eb, h5.filter_code hB hent, ← eb2] at this
        exact hF n this
    · exact h5.freshNew hB hsp hp hnl hn
  · exact spilt_keeps (hW _ hA h5.insnA) (h5.spilt hB hsp hp hv.free) hB.flow hB.entry0 (by unfold places; rw [hv.free]; exact hF v) τ
  · refine ⟨s.f.next, s.f.next + 1, hA, hS, h5.insnA, h5.insnS, by rw [h5.posA], by rw [h5.posA], fun w hw hr => ?_⟩
    rcases lc w hw with h | h | h | ⟨h, h'⟩
    · rw [h6 w h] at hr; omega
    · rw [h, h5.insnA] at hr; simp [refs, mkAlloc] at hr
    · exact h
    · rw [h5.loads w h h', refs_pos] at hr
      have : v = s.f.next := by simpa [theLoad, mkLoad, operands, raw] using hr
      omega
  · exact ⟨inb x hx.inb, by rw [hop x hx.inb]; exact hx.op, by rw [hpos x hx.inb]; exact hx.free⟩
  · obtain ⟨b, hb, hx⟩ := ha
    rcases h5.insn_old hB hb hx with ⟨t, e2, -⟩ | ⟨hph, -⟩
    · rw [e2, e]; rfl
    · have := phisOf_phi hph; rw [e] at this; cases this
  · rintro ⟨a, st, k1, k2, k3, k4, k5, k6, k8⟩
    have hav : a ≠ v := fun e => by rw [e] at k3; rw [k3] at ho; exact ho rfl
    have hxl : x < s.f.next := hB.tidy.lt x (hB.tidy.closed st x (.inr (.inr k2)) (by rw [k4, refs_pos]; simp [operands, mkStore]))
    refine ⟨a, st, inb a k1, inb st k2, ?_, ?_, by rw [hpos a k1]; exact k5, by rw [hpos a k1]; exact k6, fun w hw hr => ?_⟩
    · obtain ⟨b, hb, hx⟩ := k1
      rcases h5.insn_old hB hb hx with ⟨t, e2, -⟩ | ⟨hph, -⟩
      · rw [e2, k3]; rfl
      · have := phisOf_phi hph; rw [k3] at this; cases this
    · obtain ⟨b, hb, hx⟩ := k2
      rcases h5.insn_old hB hb hx with ⟨t, e2, -, ht⟩ | ⟨hph, -⟩
      · rw [e2, k4]
        refine Edit.mapOps_id (fun w hw => ?_)
        rcases ht with ht | ⟨n, -, -, rfl⟩
        · exact ht w
        · simp [operands, mkStore, raw] at hw
          unfold sub
          rcases hw with rfl | rfl
          · rw [if_neg (fun e => hav (Val.insn.inj e))]
          · rw [if_neg (fun e => hxv (Val.insn.inj e))]
      · have := phisOf_phi hph; rw [k4] at this; cases this
    · rcases lc w hw with h | h | h | ⟨h, h'⟩
      · exact k8 w h (hrefs x w hxv hxl h hr)
      · rw [h, h5.insnA] at hr; simp [refs, mkAlloc] at hr
      · rw [h, h5.insnS, refs_pos] at hr
        simp [mkStore, operands, raw] at hr
        omega
      · rw [h5.loads w h h', refs_pos] at hr
        have : x = s.f.next := by simpa [theLoad, mkLoad, operands, raw] using hr
        omega

theorem step_ok {s : Cg} {R : List Nat} {v : Nat} {off : Int} (hB : Base s.f R) (hp : PosOk s.pos off) (hF : FreshV s) (hv : Victim s v) :
    ∃ s', spillOne v s off = .ok (s', off - 8) ∧ Step s v R off s' := by
  by_cases ho : (s.f.insn v).op = .alloc
  · refine ⟨_, ?_, step_alloc hB hp hF hv ho⟩
    unfold spillOne
    rw [if_neg (fun h => h.elim (hasResult_jmp hv.op.1).2 hv.op.2), if_pos ho]
    rfl
  · exact step_insn hB hp hF hv ho

/-- Spilling a list of instructions. -/
theorem spill_ok {R : List Nat} : ∀ (vs : List Nat) (s : Cg) (off : Int), Base s.f R → PosOk s.pos off → FreshV s → (∀ v ∈ vs, Victim s v) → vs.Nodup →
    ∃ s', spill vs s off = .ok (s', off - 8 * vs.length) ∧ Base s'.f R ∧ PosOk s'.pos (off - 8 * vs.length) ∧ FreshV s' ∧
      (∀ W : World, (∀ a, InBody s'.f a → s'.f.insn a = mkAlloc .t64 → W.wid a = 8) → ∀ τ, Loc.Keeps W s.f (places s.pos) s'.f (places s'.pos) τ) ∧
      (∀ i (h : i < vs.length), if (s.f.insn vs[i]).op = .alloc then (s'.pos vs[i]).allocated = true ∧ (s'.pos vs[i]).spilled = off - 8 * (i + 1)
        else Through s' (off - 8 * (i + 1)) vs[i]) ∧
      (∀ x, InBody s.f x → (s'.f.insn x).op = (s.f.insn x).op ∧ InBody s'.f x) ∧
      (∀ x, x ∉ vs → InBody s.f x → s'.pos x = s.pos x) ∧
      (∀ a, InBody s.f a → s.f.insn a = mkAlloc .t64 → s'.f.insn a = mkAlloc .t64) ∧
      (∀ o x, x ∉ vs → Through s o x → Through s' o x)
  | [], s, off, hB, hp, hF, _, _ => by
    refine ⟨s, by simp [spill], hB, by simpa using hp, hF, fun W _ τ => keeps_refl, fun i h => absurd h (by simp), fun x hx => ⟨rfl, hx⟩, fun x _ _ => rfl,
      fun _ _ h => h, fun _ _ _ h => h⟩
  | v :: vs, s, off, hB, hp, hF, hv, hn => by
    obtain ⟨hvn, hn⟩ := List.nodup_cons.1 hn
    obtain ⟨s1, e1, st⟩ := step_ok hB hp hF (hv v List.mem_cons_self)
    have hne : ∀ x ∈ vs, x ≠ v := fun x hx e => hvn (e ▸ hx)
    obtain ⟨s2, e2, h1, h2, hF2, h3, h4, h5, h6, h7, h8⟩ := spill_ok vs s1 (off - 8) st.base st.pos st.fresh
      (fun x hx => st.next x (hne x hx) (hv x (List.mem_cons_of_mem _ hx))) hn
    have hvb := (hv v List.mem_cons_self).inb
    have el : off - 8 - 8 * (vs.length : Int) = off - 8 * ((v :: vs).length : Int) := by rw [List.length_cons]; push_cast; omega
    refine ⟨s2, ?_, h1, by rw [← el]; exact h2, hF2, fun W hW τ => ?_, fun i hi => ?_, fun x hx => ?_, fun x hx hxb => ?_, fun a ha e => ?_, fun o x hx ht => ?_⟩
    · rw [spill, e1, Out.ok_bind, ← el]; exact e2
    · refine keeps_trans (st.keeps W (fun a hb ha => ?_) τ) (h3 W hW τ)
      exact hW a (h5 a hb).2 (h7 a hb ha)
    · rcases i with _ | i
      · simp only [List.getElem_cons_zero, Int.ofNat_zero, Int.natCast_zero, Int.zero_add, Int.mul_one]
        split
        · rename_i ho
          rw [h6 v hvn (st.op v hvb).2]
          exact st.var ho
        · rename_i ho
          exact h8 _ v hvn (st.through ho)
      · have hi' : i < vs.length := by simpa using hi
        have := h4 i hi'
        have hm := List.getElem_mem hi'
        rw [(st.op vs[i] (hv _ (List.mem_cons_of_mem _ hm)).inb).1] at this
        simp only [List.getElem_cons_succ]
        have e3 : off - 8 - 8 * ((i : Int) + 1) = off - 8 * (((i + 1 : Nat) : Int) + 1) := by push_cast; omega
        rw [e3] at this
        exact this
    · obtain ⟨k1, k2⟩ := st.op x hx
      obtain ⟨k3, k4⟩ := h5 x k2
      exact ⟨k3.trans k1, k4⟩
    · have hxv : x ≠ v := fun e => hx (by rw [e]; simp)
      rw [h6 x (fun h => hx (List.mem_cons_of_mem _ h)) (st.op x hxb).2, st.old x hxv hxb]
    · exact h7 a (st.op a ha).2 (st.var64 a ha e)
    · have hxv : x ≠ v := fun e => hx (by rw [e]; simp)
      exact h8 o x (fun h => hx (List.mem_cons_of_mem _ h)) (st.stay o x hxv ht)

end Verif.Cg
