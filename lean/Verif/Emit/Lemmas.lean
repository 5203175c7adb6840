import Verif.Emit.Model
import Verif.Norm.Lemmas
/-! # Helper lemmas about emission -/
set_option linter.unusedSimpArgs false
namespace Verif.Emit
open Verif Verif.Norm Verif.Bpf

abbrev zero : Slot := ⟨0, 0, 0, 0, 0⟩

theorem slots_length (p : Pre) : p.slots.length = width p := by
  cases h : p.it <;> simp [Pre.slots, width, h]

theorem getElem?_mid {α} (L R : List α) (x : α) : (L ++ x :: R)[L.length]? = some x := by simp

theorem set_mid {α} (L R : List α) (x y : α) : (L ++ x :: R).set L.length y = L ++ y :: R := by simp

theorem setSlot_mid (L R : List Slot) (x : Slot) (f : Slot → Slot) :
    setSlot (L ++ x :: R) L.length f = .ok (L ++ f x :: R) := by
  simp [setSlot]

/-- Writing a machine instruction over zeroed slots. -/
theorem writePre_zero (L R : List Slot) (p : Pre) :
    writePre (L ++ (List.replicate (width p) zero ++ R)) (L.length, p) = .ok (L ++ (p.slots ++ R)) := by
  cases h : p.it
  · simp only [writePre, width, h, List.replicate, List.cons_append, List.nil_append, setSlot_mid, Out.ok_bind]
    simp [Pre.slots, h]
  · simp only [writePre, width, h, List.replicate, List.cons_append, List.nil_append, setSlot_mid, Out.ok_bind]
    have := setSlot_mid (L ++ [(⟨p.opcode, BitVec.ofNat 4 p.dst, BitVec.ofNat 4 p.src, p.off,
      p.imm64.setWidth 32⟩ : Slot)]) R zero (fun s => { s with imm := (p.imm64 >>> 32).setWidth 32 })
    simp only [List.append_assoc, List.length_append, List.length_cons, List.length_nil, List.cons_append,
      List.nil_append, Nat.zero_add] at this
    rw [this]
    simp [Pre.slots, h]

/-- The positions of a list of machine instructions are consecutive from `n`. -/
def Contig : Nat → List PPre → Prop
  | _, [] => True
  | n, q :: qs => q.1 = n ∧ Contig (n + width q.2) qs

/-- Slots needed. -/
def total (ps : List Pre) : Nat := (ps.map width).sum

@[simp] theorem total_nil : total [] = 0 := rfl
@[simp] theorem total_cons (p ps) : total (p :: ps) = width p + total ps := rfl
@[simp] theorem total_append (a b) : total (a ++ b) = total a + total b := by simp [total]

theorem slotsOf_length (ps : List Pre) : (slotsOf ps).length = total ps := by
  induction ps with
  | nil => rfl
  | cons p ps ih => simp [slots_length, ih]

theorem writePres_contig (qs : List PPre) : ∀ (L R : List Slot), Contig L.length qs →
    writePres (L ++ (List.replicate (total (qs.map Prod.snd)) zero ++ R)) qs =
      .ok (L ++ (slotsOf (qs.map Prod.snd) ++ R)) := by
  induction qs with
  | nil => intro L R _; simp [writePres]
  | cons q qs ih =>
    intro L R h
    obtain ⟨h1, h2⟩ := h
    obtain ⟨n, p⟩ := q
    simp only at h1 h2
    subst h1
    simp only [List.map_cons, total_cons, ← List.replicate_append_replicate, List.append_assoc, writePres]
    rw [writePre_zero]
    simp only [Out.ok_bind]
    have := ih (L ++ p.slots) R (by simpa [slots_length] using h2)
    simpa [List.append_assoc] using this

theorem contig_append (a b : List PPre) : ∀ n, Contig n (a ++ b) ↔
    Contig n a ∧ Contig (n + total (a.map Prod.snd)) b := by
  induction a with
  | nil => intro n; simp [Contig]
  | cons q a ih =>
    intro n
    simp only [List.cons_append, Contig, List.map_cons, total_cons, ih, and_assoc]
    rw [Nat.add_assoc]

def presOfI (is : List PInsn) : List PPre := is.flatMap (·.tr)
def presOf (bs : List PBlock) : List PPre := bs.flatMap (fun b => presOfI b.body)

theorem writePres_append (a b : List PPre) : ∀ arr,
    writePres arr (a ++ b) = (do let x ← writePres arr a; writePres x b) := by
  induction a with
  | nil => intro arr; simp [writePres]
  | cons q a ih =>
    intro arr
    simp only [List.cons_append, writePres]
    cases writePre arr q <;> simp [ih]

theorem writeInsns_eq (is : List PInsn) : ∀ arr, writeInsns arr is = writePres arr (presOfI is) := by
  induction is with
  | nil => intro arr; rfl
  | cons i is ih =>
    intro arr
    simp only [writeInsns, presOfI, List.flatMap_cons, writePres_append]
    congr 1; funext x; exact ih x

theorem writeBlocks_eq (bs : List PBlock) : ∀ arr, writeBlocks arr bs = writePres arr (presOf bs) := by
  induction bs with
  | nil => intro arr; rfl
  | cons b bs ih =>
    intro arr
    simp only [writeBlocks, presOf, List.flatMap_cons, writePres_append, writeInsns_eq]
    congr 1; funext x; exact ih x

theorem synthesize_ok (bs : List PBlock) (h : Contig 0 (presOf bs)) :
    synthesize bs (total ((presOf bs).map Prod.snd)) = .ok (slotsOf ((presOf bs).map Prod.snd)) := by
  have := writePres_contig (presOf bs) [] [] h
  simp only [List.nil_append, List.append_nil] at this
  rw [synthesize, writeBlocks_eq]
  exact this

/-! ## Positions -/

theorem posPres_spec (ps : List Pre) : ∀ n, Contig n (posPres n ps).1 ∧ (posPres n ps).1.map Prod.snd = ps ∧
    (posPres n ps).2 = n + total ps := by
  induction ps with
  | nil => intro n; simp [posPres, Contig]
  | cons p ps ih =>
    intro n
    obtain ⟨h1, h2, h3⟩ := ih (n + width p)
    refine ⟨⟨rfl, h1⟩, by simp [posPres, h2], ?_⟩
    simp [posPres, h3]; omega

/-- Machine instructions of translated blocks in layout order. -/
def mcI (is : List TInsn) : List Pre := is.flatMap (·.tr)
def mc (ts : List TBlock) : List Pre := ts.flatMap (fun b => mcI b.body)

theorem posInsns_spec (is : List TInsn) : ∀ n, Contig n (presOfI (posInsns n is).1) ∧
    (presOfI (posInsns n is).1).map Prod.snd = mcI is ∧ (posInsns n is).2 = n + total (mcI is) ∧
    (posInsns n is).1.map (·.insn) = is.map (·.insn) := by
  induction is with
  | nil => intro n; simp [posInsns, presOfI, Contig, mcI]
  | cons i is ih =>
    intro n
    obtain ⟨a1, a2, a3⟩ := posPres_spec i.tr n
    obtain ⟨h1, h2, h3, h4⟩ := ih (posPres n i.tr).2
    refine ⟨?_, ?_, ?_, ?_⟩
    · simp only [posInsns, presOfI, List.flatMap_cons]
      rw [contig_append]
      refine ⟨a1, ?_⟩
      rw [a2, ← a3]
      exact h1
    · simp only [posInsns, presOfI, List.flatMap_cons, List.map_append, a2, mcI]
      congr 1
    · show (posInsns (posPres n i.tr).2 is).2 = n + total (i.tr ++ mcI is)
      rw [total_append, h3, a3]; omega
    · simp [posInsns, h4]

theorem posBlocks_spec (ts : List TBlock) : ∀ n, Contig n (presOf (posBlocks n ts).1) ∧
    (presOf (posBlocks n ts).1).map Prod.snd = mc ts ∧ (posBlocks n ts).2 = n + total (mc ts) ∧
    (posBlocks n ts).1.map (·.id) = ts.map (·.id) := by
  induction ts with
  | nil => intro n; simp [posBlocks, presOf, Contig, mc]
  | cons b ts ih =>
    intro n
    obtain ⟨a1, a2, a3, a4⟩ := posInsns_spec b.body n
    obtain ⟨h1, h2, h3, h4⟩ := ih (posInsns n b.body).2
    refine ⟨?_, ?_, ?_, ?_⟩
    · simp only [posBlocks, presOf, List.flatMap_cons]
      rw [contig_append]
      refine ⟨a1, ?_⟩
      rw [a2, ← a3]
      exact h1
    · simp only [posBlocks, presOf, List.flatMap_cons, List.map_append, a2, mc]
      congr 1
    · show (posBlocks (posInsns n b.body).2 ts).2 = n + total (mcI b.body ++ mc ts)
      rw [total_append, h3, a3]; omega
    · simp [posBlocks, h4]

/-! ## Relocation only changes offsets -/

/-- Two machine instructions equal but for the offset. -/
def SameButOff (p q : Pre) : Prop := q = { p with off := q.off }

theorem SameButOff.width {p q : Pre} (h : SameButOff p q) : width q = width p := by
  rw [h]; rfl

/-- Pointwise relation between lists. -/
inductive Zip {α β : Type} (R : α → β → Prop) : List α → List β → Prop
  | nil : Zip R [] []
  | cons {a b as bs} : R a b → Zip R as bs → Zip R (a :: as) (b :: bs)

theorem Zip.append {α β : Type} {R : α → β → Prop} {a b c d} (h1 : Zip R a b) (h2 : Zip R c d) :
    Zip R (a ++ c) (b ++ d) := by
  induction h1 with
  | nil => exact h2
  | cons h _ ih => exact .cons h ih

theorem Zip.refl {α : Type} {R : α → α → Prop} (h : ∀ a, R a a) (l : List α) : Zip R l l := by
  induction l with
  | nil => exact .nil
  | cons a l ih => exact .cons (h a) ih

def PSame (a b : PPre) : Prop := a.1 = b.1 ∧ SameButOff a.2 b.2

theorem PSame.refl (a : PPre) : PSame a a := ⟨rfl, rfl⟩

theorem contig_zip {a b : List PPre} (h : Zip PSame a b) : ∀ n, Contig n a → Contig n b := by
  induction h with
  | nil => intro n h; exact h
  | cons h _ ih =>
    intro n hc
    refine ⟨h.1 ▸ hc.1, ?_⟩
    rw [h.2.width]
    exact ih _ hc.2

theorem total_zip {a b : List PPre} (h : Zip PSame a b) :
    total (b.map Prod.snd) = total (a.map Prod.snd) := by
  induction h with
  | nil => rfl
  | cons h _ ih => simp [ih, h.2.width]

theorem relocInsn_same {bs i j} (h : relocInsn bs i = .ok j) : Zip PSame i.tr j.tr ∧ j.insn = i.insn := by
  have hp : ∀ t, patch bs i t = .ok j → Zip PSame i.tr j.tr ∧ j.insn = i.insn := by
    intro t h
    unfold patch at h
    split at h
    · rename_i pos p heq
      obtain ⟨tt, h1, h2⟩ := Out.bind_eq_ok.1 h
      simp at h2
      subst h2
      rw [heq]
      exact ⟨.cons ⟨rfl, rfl⟩ .nil, rfl⟩
    · simp at h
  unfold relocInsn at h
  split at h
  · exact hp _ h
  · split at h
    · exact hp _ h
    · simp at h; subst h; exact ⟨Zip.refl PSame.refl _, rfl⟩

theorem relocInsns_same {bs is js} (h : relocInsns bs is = .ok js) :
    Zip PSame (presOfI is) (presOfI js) ∧ Zip (fun i j => relocInsn bs i = .ok j) is js := by
  induction is generalizing js with
  | nil => simp [relocInsns] at h; subst h; exact ⟨.nil, .nil⟩
  | cons i is ih =>
    simp only [relocInsns] at h
    obtain ⟨a, h1, h⟩ := Out.bind_eq_ok.1 h
    obtain ⟨r, h2, h⟩ := Out.bind_eq_ok.1 h
    simp at h; subst h
    obtain ⟨i1, i2⟩ := ih h2
    exact ⟨(relocInsn_same h1).1.append i1, .cons h1 i2⟩

/-- What relocation does to a block. -/
def RelBlock (bs : List PBlock) (a b : PBlock) : Prop :=
  b.id = a.id ∧ b.pos = a.pos ∧ Zip (fun i j => relocInsn bs i = .ok j) a.body b.body

theorem relocBlocks_same {all bs cs} (h : relocBlocks all bs = .ok cs) :
    Zip PSame (presOf bs) (presOf cs) ∧ Zip (RelBlock all) bs cs := by
  induction bs generalizing cs with
  | nil => simp [relocBlocks] at h; subst h; exact ⟨.nil, .nil⟩
  | cons b bs ih =>
    simp only [relocBlocks] at h
    obtain ⟨a, h1, h⟩ := Out.bind_eq_ok.1 h
    obtain ⟨r, h2, h⟩ := Out.bind_eq_ok.1 h
    simp at h; subst h
    obtain ⟨i1, i2⟩ := ih h2
    obtain ⟨j1, j2⟩ := relocInsns_same h1
    exact ⟨j1.append i1, .cons ⟨rfl, rfl, j2⟩ i2⟩

theorem emitT_char {ts : List TBlock} {rb : List PBlock} (h : relocBlocks (posBlocks 0 ts).1 (posBlocks 0 ts).1 = .ok rb) :
    emitT ts = .ok (slotsOf ((presOf rb).map Prod.snd)) ∧ Contig 0 (presOf rb) ∧
    total ((presOf rb).map Prod.snd) = (posBlocks 0 ts).2 := by
  obtain ⟨h1, h2⟩ := relocBlocks_same h
  obtain ⟨c1, c2, c3, c4⟩ := posBlocks_spec ts 0
  have hc := contig_zip h1 0 c1
  have ht := total_zip h1
  rw [c2] at ht
  have hcnt : total ((presOf rb).map Prod.snd) = (posBlocks 0 ts).2 := by rw [ht, c3]; simp
  refine ⟨?_, hc, hcnt⟩
  simp only [emitT, h, Out.ok_bind]
  rw [← hcnt]
  exact synthesize_ok rb hc

end Verif.Emit
