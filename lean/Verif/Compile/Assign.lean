import Verif.Compile.Alloc
/-!
# After the rounds, registers can be assigned
-/
namespace Verif.Compile
open Verif Verif.IR Verif.Edit Verif.Cg
open Verif.Loc (phisOf_append phisOf_phi places virt placeOf hasResult AllocReady writes reads places_free)
open Verif.Norm (VrPos Reg Op)

variable {s : Cg} {R : List Nat} {rg : Nat → Nat} {d : BitVec 16} {off : Int}

theorem front_phi {f : Fn} {b x : Nat} (hf : ∀ x ∈ codeOf f b, (f.insn x).op ≠ .phi) (hx : x ∈ f.body b) (hp : (f.insn x).op = .phi) : x ∈ phisOf f b := by
  rw [← phisOf_append f b] at hx
  rcases List.mem_append.1 hx with h | h
  · exact h
  · exact absurd hp (hf x h)

theorem front_code {f : Fn} {b x : Nat} (hx : x ∈ f.body b) (hp : (f.insn x).op ≠ .phi) : x ∈ codeOf f b := by
  rw [← phisOf_append f b] at hx
  rcases List.mem_append.1 hx with h | h
  · exact absurd (phisOf_phi h) hp
  · exact h

/-- An operand that has no place is an instruction of the blocks. -/
theorem Holds.operandR (h : Holds s R rg d off) {x v : Nat} (hx : InR s.f R x) (hr : 0 < refs (s.f.insn x) v) (hv : (s.pos v).allocated = false) : InR s.f R v := by
  rcases h.shape.dom x hx v (refs_pos.1 hr) with e | ⟨i, hi, e⟩ | e
  · rw [e, h.pos.sp] at hv; cases hv
  · rw [e, h.pos.rg i hi] at hv; cases hv
  · exact e.1

theorem Holds.varR (h : Holds s R rg d off) {x v : Nat} (hx : InR s.f R x) (hr : 0 < refs (s.f.insn x) v) (hv : (s.f.insn v).op = .alloc) : InR s.f R v := by
  rcases h.shape.dom x hx v (refs_pos.1 hr) with e | ⟨i, hi, e⟩ | e
  · rw [e, h.fixed.1] at hv; cases hv
  · rw [e, h.fixed.2 i hi] at hv; cases hv
  · exact e.1

theorem head_refs {i : Insn} {a : Nat} (h : i.vals.head? = some (.insn a)) : 0 < refs i a := by
  have : Val.insn a ∈ i.vals := List.mem_of_head? h
  exact refs_pos.2 (by unfold operands; simp [this])

/-- The place of a value that is not a variable is written to by its own instruction only. -/
theorem Holds.writes_own (h : Holds s R rg d off) {x v : Nat} (hx : InR s.f R x) (hv : (s.pos v).allocated = false) (hal : (s.f.insn v).op ≠ .alloc)
    (hd : dst s.f x ≠ some v) : virt v ∉ writes (places s.pos) x (s.f.insn x) := by
  intro hw
  rcases Loc.writes_cases hw with ⟨-, h1⟩ | ⟨h1, a, h2, h3⟩ | ⟨h1, h2⟩
  · unfold virt at h1; omega
  · obtain ⟨rfl, -⟩ := Loc.places_virt h3.symm
    obtain ⟨a', r, h4, h5⟩ := h.ready.access x (hx.inBody h.ready.sub) (.inr h1)
    rw [h4] at h2
    cases h2
    exact hal h5
  · obtain ⟨rfl, -⟩ := Loc.places_virt h2.symm
    rw [dst_of_result, if_pos h1] at hd
    exact hd rfl

/-- A use of a value that has no place and is not a variable reads its virtual register. -/
theorem Holds.reads_use (h : Holds s R rg d off) {x v : Nat} (hx : InR s.f R x) (hp : (s.f.insn x).op ≠ .phi) (hv : (s.pos v).allocated = false)
    (hal : (s.f.insn v).op ≠ .alloc) (hr : 0 < refs (s.f.insn x) v) : virt v ∈ reads (places s.pos) (s.f.insn x) := by
  obtain ⟨b, hb, hxb⟩ := hx
  have hc := front_code hxb hp
  have hraw := h.ready.raws b hb x hc
  have hacc := h.ready.access x ⟨b, h.ready.sub b hb, hxb⟩
  have ho := refs_pos.1 hr
  rw [← places_free hv]
  generalize s.f.insn x = i at *
  have inV : ∀ vs : List Val, Val.insn v ∈ vs → places s.pos v ∈ vs.flatMap (Loc.place (places s.pos)) := fun vs hm =>
    List.mem_flatMap.2 ⟨_, hm, List.mem_singleton.2 rfl⟩
  obtain ⟨op, vals, phi, addr, addrOff, addrKind, aluOp, vrType, bb1, bb2, aux, immKind, imm64⟩ := i
  have hvals : ∀ hn : (op = .loadraw ∨ op = .storeraw) → False, Val.insn v ∈ vals := by
    intro hn
    unfold operands at ho
    dsimp only at ho hp
    rw [if_neg hp] at ho
    have : raw op = false := by
      cases op <;> first | rfl | exact (hn (.inl rfl)).elim | exact (hn (.inr rfl)).elim
    rw [this] at ho
    simpa using ho
  cases op
  case phi => exact absurd rfl hp
  case call =>
    have := hvals (by simp)
    rw [show vals = [] from hraw (.inl rfl)] at this
    cases this
  case store =>
    have h1 := hvals (by simp)
    obtain ⟨a, r, h2, h3⟩ := hacc (.inr rfl)
    dsimp only at h2
    rw [h2] at h1
    show places s.pos v ∈ vals.tail.flatMap (Loc.place (places s.pos))
    rw [h2]
    refine inV _ ?_
    rcases List.mem_cons.1 h1 with e | h1
    · cases e; exact absurd h3 hal
    · exact h1
  case loadraw =>
    have h0 : vals = [] := hraw (.inr rfl)
    subst h0
    have h1 : addr = .insn v := by simpa [operands, raw, eq_comm] using ho
    subst h1
    exact List.mem_singleton.2 rfl
  case storeraw =>
    have h1 : Val.insn v ∈ vals ∨ .insn v = addr := by simpa [operands, raw] using ho
    show _ ∈ vals.flatMap _ ++ Loc.place _ addr
    rcases h1 with h1 | h1
    · exact List.mem_append_left _ (inV _ h1)
    · exact List.mem_append_right _ (by rw [← h1]; exact List.mem_singleton.2 rfl)
  all_goals exact inV _ (hvals (by simp))

/-- A value that is needed is in a virtual register that is needed. -/
theorem Holds.needed (h : Holds s R rg d off) {v : Nat} (hv : (s.pos v).allocated = false) (hal : (s.f.insn v).op ≠ .alloc) {b : Nat} {rest : List Nat}
    (hn : IR.Needed s.f (dst s.f) v b rest) : b ∈ R → (∃ pre, s.f.body b = pre ++ rest) →
    Loc.Needed s.f (places s.pos) (virt v) b (rest.dropWhile (fun x => (s.f.insn x).op == .phi)) ∧
      (∀ x ∈ rest.takeWhile (fun x => (s.f.insn x).op == .phi), x ≠ v) := by
  induction hn with
  | @use b x rest hp hr =>
    intro hb ⟨pre, e⟩
    have hx : InR s.f R x := ⟨b, hb, by rw [e]; simp⟩
    have : ((s.f.insn x).op == Op.phi) = false := by simpa using hp
    rw [List.dropWhile_cons_of_neg (by rw [this]; simp), List.takeWhile_cons_of_neg (by rw [this]; simp)]
    exact ⟨.read (h.reads_use hx hp hv hal hr), by simp⟩
  | @skip b x rest hd hn ih =>
    intro hb ⟨pre, e⟩
    have hx : InR s.f R x := ⟨b, hb, by rw [e]; simp⟩
    obtain ⟨h1, h2⟩ := ih hb ⟨pre ++ [x], by rw [e]; simp⟩
    by_cases hp : (s.f.insn x).op = .phi
    · have : ((s.f.insn x).op == Op.phi) = true := by simpa using hp
      rw [List.dropWhile_cons_of_pos (p := fun x => (s.f.insn x).op == .phi) this, List.takeWhile_cons_of_pos (p := fun x => (s.f.insn x).op == .phi) this]
      refine ⟨h1, fun y hy => ?_⟩
      rcases List.mem_cons.1 hy with rfl | hy
      · intro ey
        rw [dst_of_result, hp] at hd
        exact hd (congrArg some ey)
      · exact h2 y hy
    · have : ((s.f.insn x).op == Op.phi) = false := by simpa using hp
      rw [List.dropWhile_cons_of_neg (by rw [this]; simp), List.takeWhile_cons_of_neg (by rw [this]; simp)]
      refine ⟨.skip (h.writes_own hx hv hal hd) ?_, by simp⟩
      have hr : ∀ y ∈ rest, (s.f.insn y).op ≠ .phi := fun y hy => h.ready.front b (h.ready.sub b hb) y (Loc.after_plain e hp y hy)
      have : rest.dropWhile (fun x => (s.f.insn x).op == .phi) = rest := by
        cases rest with
        | nil => rfl
        | cons y l => exact List.dropWhile_cons_of_neg (by simpa using hr y List.mem_cons_self)
      rw [this] at h1
      exact h1
  | @phi b c p hc hp hop ho =>
    intro hb _
    refine ⟨.phi hc (front_phi (h.ready.front c ?_) hp hop) ho (places_free hv).symm, by simp⟩
    exact h.ready.sub c (h.ready.flow.succs b hb c hc)
  | @jump b c hc hn ih =>
    intro hb _
    obtain ⟨h1, h2⟩ := ih (h.ready.flow.succs b hb c hc) ⟨[], rfl⟩
    refine ⟨.edge hc (fun x hx e => ?_) h1, by simp⟩
    exact h2 x hx (Loc.places_virt e.symm).1

theorem not_needed_through {f : Fn} {v b : Nat} : ∀ (pre : List Nat) (rest : List Nat), (∀ x ∈ pre, refs (f.insn x) v = 0) → refs (f.insn v) v = 0 → dst f v = some v →
    ¬ IR.Needed f (dst f) v b (pre ++ v :: rest)
  | [], rest, _, h0, hd, hn => by
    cases hn with
    | use _ hr => omega
    | skip h1 _ => exact h1 hd
  | x :: pre, rest, hp, h0, hd, hn => by
    cases hn with
    | use _ hr => have := hp x List.mem_cons_self; omega
    | skip h1 h2 => exact not_needed_through pre rest (fun y hy => hp y (List.mem_cons_of_mem _ hy)) h0 hd h2

theorem needed_prefix {f : Fn} {l : Nat → Nat} {q b : Nat} {rest : List Nat} : ∀ pre : List Nat, (∀ x ∈ pre, q ∉ writes l x (f.insn x)) → Loc.Needed f l q b rest →
    Loc.Needed f l q b (pre ++ rest)
  | [], _, h => h
  | x :: pre, hp, h => .skip (hp x List.mem_cons_self) (needed_prefix pre (fun y hy => hp y (List.mem_cons_of_mem _ hy)) h)

theorem nodup_split {α : Type} {a : α} : ∀ {p p' r r' : List α}, (p ++ a :: r).Nodup → p ++ a :: r = p' ++ a :: r' → p = p' ∧ r = r'
  | [], [], r, r', _, e => by cases e; exact ⟨rfl, rfl⟩
  | [], x :: p', r, r', hn, e => by
    cases e
    exact absurd (List.mem_append_right p' List.mem_cons_self) (List.nodup_cons.1 hn).1
  | x :: p, [], r, r', hn, e => by
    cases e
    exact absurd (List.mem_append_right p List.mem_cons_self) (List.nodup_cons.1 hn).1
  | x :: p, y :: p', r, r', hn, e => by
    have e1 : x = y := (List.cons.inj e).1
    have e2 : p ++ a :: r = p' ++ a :: r' := (List.cons.inj e).2
    obtain ⟨h1, h2⟩ := nodup_split (List.nodup_cons.1 hn).2 e2
    exact ⟨by rw [e1, h1], h2⟩

theorem Holds.allocReady (h : Holds s R rg d off) (hc : ∀ b ∈ R, Conn s.f b) : AllocReady s.f R (dst s.f) s.pos := by
  have hent := h.ready.flow.entry
  refine ⟨fun b hb => ⟨h.ready.sub b hb, hc b hb⟩, fun b hb => h.ready.front b (h.ready.sub b hb), h.ready.entry, fun b _ x _ => dst_of_result, fun v hv hn => ?_,
    fun b hb pre a rest e hop hf hn => ?_, fun b hb x hx hop a ha => ?_⟩
  · by_cases hal : (s.f.insn v).op = .alloc ∧ InR s.f R v
    · obtain ⟨pre, rest, e, hp⟩ := h.early v hal.2 hal.1 hv
      rw [e] at hn
      refine not_needed_through pre rest hp ?_ ?_ hn
      · refine Nat.eq_zero_of_not_pos fun h0 => ?_
        obtain ⟨h1, -⟩ := (h.shape.insn v hal.2).var v (refs_pos.1 h0) hal.1
        rcases h1 with h1 | h1 <;> rw [hal.1] at h1 <;> cases h1
      · rw [dst_of_result, hal.1]; rfl
    · by_cases hop : (s.f.insn v).op = .alloc
      · -- a variable that is nowhere is not used
        have hno : ∀ x, InR s.f R x → refs (s.f.insn x) v = 0 := fun x hx => Nat.eq_zero_of_not_pos fun h0 => hal ⟨hop, h.varR hx h0 hop⟩
        have : ∀ b rest, IR.Needed s.f (dst s.f) v b rest → b ∈ R → (∀ x ∈ rest, x ∈ s.f.body b) → False := by
          intro b rest hn
          induction hn with
          | @use b x rest _ hr =>
            intro hb hs
            have := hno x ⟨b, hb, hs x List.mem_cons_self⟩
            omega
          | @skip b x rest _ _ ih => exact fun hb hs => ih hb fun y hy => hs y (List.mem_cons_of_mem _ hy)
          | @phi b c p hc hp hop' ho =>
            intro hb _
            have := hno p ⟨c, h.ready.flow.succs b hb c hc, hp⟩
            have h2 : Val.insn v ∈ operands (s.f.insn p) := by
              unfold operands
              rw [if_pos hop']
              exact List.mem_append_left _ (List.mem_append_right _ (List.mem_map.2 ⟨_, ho, rfl⟩))
            have := refs_pos.2 h2
            omega
          | @jump b c hc _ ih => exact fun hb _ => ih (h.ready.flow.succs b hb c hc) fun _ hx => hx
        exact this _ _ hn hent fun _ hx => hx
      · have h1 := (h.needed hv hop hn hent ⟨[], rfl⟩).1
        have h2 : codeOf s.f s.f.entry = s.f.body s.f.entry := by
          have := phisOf_append s.f s.f.entry
          rw [h.ready.entry] at this
          exact this
        have h3 : Loc.Needed s.f (places s.pos) (virt v) s.f.entry (codeOf s.f s.f.entry) := h1
        rw [h2] at h3
        exact h.ready.fresh v h3
  · have haR : InR s.f R a := ⟨b, hb, by rw [e]; simp⟩
    obtain ⟨pre', rest', e', hp⟩ := h.early a haR hop hf
    have eb : b = s.f.entry := by
      rw [← h.ready.tidy.parent b (h.ready.sub b hb) a (by rw [e]; simp)]
      exact h.ready.tidy.parent _ (h.ready.sub _ hent) a (by rw [e']; simp)
    subst eb
    have hnd := h.ready.tidy.nodup _ (h.ready.sub _ hent)
    rw [e] at hnd e'
    obtain ⟨rfl, rfl⟩ := nodup_split hnd e'
    refine h.ready.fresh a ?_
    rw [e]
    refine needed_prefix pre (fun x hx hw => ?_) (.skip ?_ hn)
    · rcases Loc.writes_cases hw with ⟨-, h1⟩ | ⟨h1, y, h2, h3⟩ | ⟨h1, h2⟩
      · unfold virt at h1; omega
      · obtain ⟨rfl, -⟩ := Loc.places_virt h3.symm
        have := head_refs h2
        have := hp x hx
        omega
      · obtain ⟨rfl, -⟩ := Loc.places_virt h2.symm
        rw [List.nodup_append] at hnd
        exact hnd.2.2 _ hx _ List.mem_cons_self rfl
    · have : writes (places s.pos) a (s.f.insn a) = [] := by unfold writes; rw [hop]
      rw [this]; simp
  · obtain ⟨a', r, h1, h2⟩ := h.ready.access x ⟨b, h.ready.sub b hb, hx⟩ (.inr hop)
    have hr := head_refs ha
    rw [h1] at ha
    cases ha
    have haR := h.varR ⟨b, hb, hx⟩ hr h2
    cases hal : (s.pos a).allocated with
    | false => rw [places_free hal]; unfold virt; omega
    | true => rw [Loc.places_alloc hal]; exact Loc.placeOf_slot (h.vars a haR h2 hal)

theorem Holds.liveOk (h : Holds s R rg d off) (hg : Graph s.f) : Live.Ok s.f := by
  refine ⟨h.ready.tidy.parent, h.ready.tidy.nodup, fun b hb c hc => ?_, fun b hb x hx v hr => ?_⟩
  · have h1 := (hg.succs b hb).2 c hc
    exact ⟨h1, (hg.sym b hb c h1).1 hc⟩
  · have hl : Live s.f x := .inr (.inr ⟨b, hb, hx⟩)
    exact (h.ready.users v (h.ready.tidy.closed x v hl hr)).1 x hl hr

end Verif.Compile
