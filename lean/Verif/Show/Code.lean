import Verif.Show.Run
import Verif.Pipe.Lift
/-!
# The listings of lifted functions
-/
namespace Verif.Show
open Verif Verif.IR Verif.Edit
open Verif.Pipe (Code LaidOut Fact Nice liftedOp Route)
open Verif.Flatten (graphOf)
open Verif.Lower (void)
open Verif.Opts (Str)
open Verif.Tool (str dec hex int)

variable {f g : Fn} {t : Tags} {e : Extra} {R : List Nat}

/-- What a listing does not show is as usual: `neg` works on 64 bits, bytes are swapped in 64 bits. -/
def Visible (f : Fn) : Prop := ∀ x, InBody f x → ((f.insn x).op = .neg → (f.insn x).aluOp = .w64) ∧ ((f.insn x).op = .htobe ∨ (f.insn x).op = .htole → (f.insn x).aux = 64)

/-- Positions are numbers of instructions: they can be printed. -/
def Printable (e : Extra) : Prop := ∀ x, PosOk (e.pos x) ∧ (∀ k, PosOk (e.vpos x k)) ∧ PosOk (e.apos x)

theorem shown_operands {i : Insn} {v : Val} (h : v ∈ shown i) : v ∈ operands i := by
  unfold operands
  cases ho : i.op <;> simp only [shown, ho] at h <;>
    first
    | exact absurd h List.not_mem_nil
    | (simp only [List.mem_append]; exact .inl (.inl (List.mem_of_mem_take h)))
    | (simp only [List.mem_append]; exact .inl (.inl h))
    | (simp only [if_true, List.mem_append]; exact .inl (.inr h))
    | (simp only [List.mem_append]; exact .inr (by simpa [raw] using h))
    | (rcases List.mem_cons.1 h with h | h
       · simp only [List.mem_append]; exact .inr (by simp [raw, h])
       · simp only [List.mem_append]; exact .inl (.inl (List.mem_of_mem_take h)))

theorem nice_told {v : Val} (h : Nice f v) : Told v := by
  rcases h with ⟨k, c, rfl⟩ | ⟨y, rfl, _⟩
  · refine ⟨fun _ => .inr ⟨rfl, ?_⟩, fun h => absurd rfl h⟩
    have : (c.signExtend 64).setWidth 32 = c := by
      apply BitVec.eq_of_getLsbD_eq
      intro i hi
      simp [BitVec.getLsbD_signExtend, hi]
      omega
    rw [this]
  · trivial

theorem void_is {o : Op} (h : void o = false) : isVoid o = false := by
  cases o <;> first | rfl | exact Bool.noConfusion h

theorem fact_arity {i : Insn} (k : Fact f i) : arity i = some i.vals.length := by
  have a := k.chk.arity
  have o := k.op
  have m := k.imm
  cases ho : i.op <;> rw [ho] at a o m <;> simp only [arity, ho] <;>
    first
    | (rw [a _ rfl])
    | (rw [(m rfl).2]; rfl)
    | (rcases o with o | o | o | o | o <;> cases o)

section
variable (h : Code f) (hl : LaidOut f R) (ht : tag f = some t)
include h hl ht

theorem Code.named {x y : Nat} (hx : InBody f x) (hy : .insn y ∈ operands (f.insn x)) : Named f t y := by
  rcases (h.insn x hx).vals _ hy with ⟨k, c, e⟩ | ⟨z, e, hz⟩
  · cases e
  · cases Val.insn.inj e
    rcases hz with hz | hz | ⟨⟨b, hb, hz⟩, hv⟩
    · exact .inl (hz ▸ h.reg)
    · rcases (h.fixed y (.inr hz)).2 with k | k
      · exact .inl k
      · exact .inr (.inl k)
    · obtain ⟨o, c⟩ := tag_spec ht
      exact .inr (.inr (Option.isSome_iff_exists.1 (o.all b (c b (h.conn b hb)) y hz (void_is hv))))

theorem named_like (hn : t.cnt ≤ 2 ^ 64) {y : Nat} (hy : Named f t y) : NameLike (nameOf f t e y) := by
  obtain ⟨o, -⟩ := tag_spec ht
  have ha : (f.insn y).aux.toNat < 10 ^ 20 := by have := (f.insn y).aux.isLt; omega
  unfold nameOf
  by_cases h1 : (f.insn y).op = .reg
  · rw [if_pos h1]; exact ⟨_, ha, .inl rfl⟩
  · rw [if_neg h1]
    by_cases h2 : (f.insn y).op = .funarg
    · rw [if_pos h2]; exact ⟨_, ha, .inr (.inl rfl)⟩
    · rw [if_neg h2]
      rcases hy with hy | hy | ⟨k, hk⟩
      · exact absurd hy h1
      · exact absurd hy h2
      · rw [hk]
        exact ⟨k, by have := (o.small y k hk).1; omega, .inr (.inr rfl)⟩

theorem block_like (hn : t.bcnt ≤ 2 ^ 64) {b : Nat} (hb : b ∈ f.allBbs) : BlockLike (bbName t e b) := by
  obtain ⟨o, c⟩ := tag_spec ht
  obtain ⟨k, hk⟩ := Option.isSome_iff_exists.1 (c b (h.conn b hb))
  unfold bbName
  rw [hk]
  exact ⟨k, by have := o.bsmall b k hk; omega, rfl⟩

theorem code_targets {b x : Nat} (hb : b ∈ f.allBbs) (hx : x ∈ f.body b) :
    ((f.insn x).op = .ja ∨ (f.insn x).op.condJmp = true → (f.insn x).bb1 ∈ f.allBbs) ∧ ((f.insn x).op.condJmp = true → (f.insn x).bb2 ∈ f.allBbs) := by
  have key : ends (f.insn x).op = true → SuccsOk f b x := by
    intro he
    obtain ⟨A, B, eq⟩ := List.append_of_mem hx
    have hB := h.last b A x B eq he
    exact (h.route b hb).jumps (h.ok.tidy.nodup b hb) eq he hB
  have su := (h.graph.succs b hb).2
  refine ⟨fun hk => ?_, fun hk => ?_⟩
  · rcases hk with hk | hk
    · have := key (by rw [hk]; rfl)
      unfold SuccsOk at this
      simp only [hk, Norm.Op.condJmp] at this
      exact su _ (by rw [show f.succs b = [(f.insn x).bb1] by simpa using this]; simp)
    · obtain ⟨c1, c2, c3, c4⟩ := Pipe.cond_ends hk
      have := key c1
      unfold SuccsOk at this
      simp only [hk, c3, c4, or_self, if_false, if_true] at this
      exact su _ (by rw [this]; simp)
  · obtain ⟨c1, c2, c3, c4⟩ := Pipe.cond_ends hk
    have := key c1
    unfold SuccsOk at this
    simp only [hk, c3, c4, or_self, if_false, if_true] at this
    exact su _ (by rw [this]; simp)

theorem Code.opens (hv : Visible f) (hn : t.cnt ≤ 2 ^ 64) (hm : t.bcnt ≤ 2 ^ 64) (hp : Printable e) : Open f t e R := by
  obtain ⟨o, c⟩ := tag_spec ht
  have mb : ∀ {b}, b ∈ R → b ∈ f.allBbs := fun hb => (hl.mem _).1 hb
  have nm : ∀ {b x y}, b ∈ R → x ∈ f.body b → .insn y ∈ shown (f.insn x) → Named f t y := fun hb hx hy => Code.named h hl ht ⟨_, mb hb, hx⟩ (shown_operands hy)
  refine { once := o, fits := ⟨hn, hm⟩, blocks := fun b hb => c b (h.conn b (mb hb)), says := fun b hb x hx => ?_, pos := hp, named := fun b hb x hx y hy => nm hb hx hy, vars := ?_, targets := ?_, others := ?_, labels := ?_,
           nodup := hl.nodup, first := hl.first, falls := ?_ }
  · have k := h.insn x ⟨b, mb hb, hx⟩
    have v := hv x ⟨b, mb hb, hx⟩
    exact ⟨fact_arity k, fun w hw => nice_told (k.vals w (shown_operands hw)), fun y hy => named_like h hl ht hn (nm hb hx hy), fun _ q hq => block_like h hl ht hm (k.labels q hq),
      fun hk => block_like h hl ht hm ((code_targets h hl ht (mb hb) hx).1 hk), fun hk => block_like h hl ht hm ((code_targets h hl ht (mb hb) hx).2 hk), v.1,
      fun hk => (by rcases k.op with q | q | q | q | q <;> rw [hk] at q <;> cases q), v.2⟩
  · intro b hb x hx ho y vs _
    have k := (h.insn x ⟨b, mb hb, hx⟩).op
    rcases ho with ho | ho <;> rw [ho] at k <;> rcases k with q | q | q | q | q <;> cases q
  · intro b hb x hx hk
    exact (hl.mem _).2 ((code_targets h hl ht (mb hb) hx).1 hk)
  · intro b hb x hx hk
    exact (hl.mem _).2 ((code_targets h hl ht (mb hb) hx).2 hk)
  · intro b hb x hx ho q hq
    exact c _ (h.conn _ ((h.insn x ⟨b, mb hb, hx⟩).labels q hq))
  · intro b hb hf
    obtain ⟨d, hd⟩ := (h.route b (mb hb)).fallOnly hf
    exact ⟨d, hd, hl.next b hb d (.inl ⟨hd, by rcases Pipe.last_fall hf with q | q <;> simp [graphOf, Layout.Blk.jaTo, q]⟩)⟩

end

/-! ## Printing succeeds -/

theorem text_ok {i : Insn} (k : Fact f i) (nm bt : Nat → Str) (vp : Nat → Pos) (ap : Pos) : ∃ s, insnText nm bt vp ap i = .ok s := by
  have a := k.chk.arity
  have m := k.imm
  have sz := k.chk.size
  have vr : ∀ {t : VrTy}, t ≠ .unknown → ∃ s, vrText t = .ok s := fun {t} h => by cases t <;> first | exact absurd rfl h | exact ⟨_, rfl⟩
  have o := k.op
  have first1 : i.vals.length = 1 → ∀ G : Val → Str, ∃ s, first i G = .ok s := fun h G => by
    obtain ⟨v, hv⟩ := List.length_eq_one_iff.1 h
    exact ⟨G v, by simp [first, hv]⟩
  have bin : i.vals.length = 2 → ∀ name : Str, ∃ s, aluText nm vp i name = .ok s := fun h name => by
    obtain ⟨v, w, hv⟩ := two (i := i) (n := some 2) (congrArg some h.symm) rfl
    unfold aluText; rw [hv]; exact ⟨_, rfl⟩
  cases ho : i.op <;> rw [ho] at a o m sz
  case add | sub | mul | div | or | and | lsh | arsh | rsh | mod | xor =>
    simp only [insnText, ho, aluName]
    exact bin (a 2 rfl) _
  case jeq | jgt | jge | jlt | jle | jne | jsge | jsle | jsgt | jslt =>
    simp only [insnText, ho, aluName, jmpName]
    obtain ⟨s, hs⟩ := bin (a 2 rfl) _
    exact ⟨_, by rw [hs]; rfl⟩
  case neg | htobe | htole =>
    simp only [insnText, ho]
    exact first1 (a 1 rfl) _
  case loadraw =>
    simp only [insnText, ho]
    obtain ⟨s, hs⟩ := vr (sz (.inr (.inl rfl)))
    exact ⟨_, by rw [hs]; rfl⟩
  case storeraw =>
    simp only [insnText, ho]
    obtain ⟨s, hs⟩ := vr (sz (.inr (.inr rfl)))
    rw [hs]
    exact first1 (a 1 rfl) _
  case loadimm =>
    simp only [insnText, ho]
    have : ∀ n, n ≤ 6 → ∃ s, immText n = .ok s := fun n h => by
      match n, h with
      | 0, _ => exact ⟨_, rfl⟩
      | 1, _ => exact ⟨_, rfl⟩
      | 2, _ => exact ⟨_, rfl⟩
      | 3, _ => exact ⟨_, rfl⟩
      | 4, _ => exact ⟨_, rfl⟩
      | 5, _ => exact ⟨_, rfl⟩
      | 6, _ => exact ⟨_, rfl⟩
    obtain ⟨s, hs⟩ := this _ (m rfl).1
    exact ⟨_, by rw [hs]; rfl⟩
  all_goals first | (unfold insnText; rw [ho]; exact ⟨_, rfl⟩) | (rcases o with q | q | q | q | q <;> cases q)

theorem listing_ok (h : Code f) (hl : LaidOut f R) (e : Extra) : (∃ s, listing f R e = .ok s) ∧ sets f R = false := by
  have mb : ∀ {b}, b ∈ R → b ∈ f.allBbs := fun hb => (hl.mem _).1 hb
  obtain ⟨t, ht⟩ := tag_total h.entry fun b hb => (h.graph.succs b hb).2
  have lines : ∀ xs : List Nat, (∀ x ∈ xs, InBody f x) → ∃ l, insnLines f t e xs = .ok l := by
    intro xs
    induction xs with
    | nil => intro _; exact ⟨_, rfl⟩
    | cons x xs ih =>
      intro hx
      obtain ⟨l, el⟩ := ih fun y hy => hx y (by simp [hy])
      obtain ⟨s, es⟩ := text_ok (h.insn x (hx x (by simp))) (nameOf f t e) (bbName t e) (e.vpos x) (e.apos x)
      exact ⟨_, by simp only [insnLines, insnLine, es, el]; rfl⟩
  have blocks : ∀ bs : List Nat, (∀ b ∈ bs, b ∈ f.allBbs) → ∃ l, blockLines f t e bs = .ok l := by
    intro bs
    induction bs with
    | nil => intro _; exact ⟨_, rfl⟩
    | cons b bs ih =>
      intro hb
      obtain ⟨l, el⟩ := ih fun y hy => hb y (by simp [hy])
      obtain ⟨s, es⟩ := lines (f.body b) fun x hx => ⟨b, hb b (by simp), hx⟩
      exact ⟨_, by simp only [blockLines, es, el]; rfl⟩
  constructor
  · obtain ⟨l, el⟩ := blocks R fun b hb => mb hb
    exact ⟨_, by simp only [listing, ht, el]; rfl⟩
  · unfold sets
    rw [Bool.eq_false_iff]
    intro hk
    obtain ⟨b, hb, hk⟩ := List.any_eq_true.1 hk
    obtain ⟨x, hx, hk⟩ := List.any_eq_true.1 hk
    obtain ⟨v, hv, hk⟩ := List.any_eq_true.1 hk
    rcases (h.insn x ⟨b, mb hb, hx⟩).vals v (shown_operands hv) with ⟨k, c, rfl⟩ | ⟨y, rfl, _⟩ <;> cases hk

end Verif.Show
