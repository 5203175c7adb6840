import Verif.Emit.Lemmas
import Verif.Norm.Line
/-! # Where the code of each instruction ends up (helper lemmas) -/
set_option linter.unusedSimpArgs false
namespace Verif.Emit
open Verif Verif.Norm Verif.Bpf

theorem Zip.split {α β : Type} {R : α → β → Prop} {a b : List α} {l : List β} (h : Zip R (a ++ b) l) :
    ∃ a' b', l = a' ++ b' ∧ Zip R a a' ∧ Zip R b b' := by
  induction a generalizing l with
  | nil => exact ⟨[], l, rfl, .nil, h⟩
  | cons x a ih =>
    cases h with
    | cons h1 h2 =>
      obtain ⟨a', b', rfl, h3, h4⟩ := ih h2
      exact ⟨_ :: a', b', rfl, .cons h1 h3, h4⟩

theorem posInsns_append (a b : List TInsn) : ∀ n,
    (posInsns n (a ++ b)).1 = (posInsns n a).1 ++ (posInsns (n + total (mcI a)) b).1 := by
  induction a with
  | nil => intro n; simp [posInsns, mcI]
  | cons i a ih =>
    intro n
    simp only [List.cons_append, posInsns, ih]
    rw [(posPres_spec i.tr n).2.2]
    have : mcI (i :: a) = i.tr ++ mcI a := rfl
    rw [this, total_append, Nat.add_assoc]

theorem posBlocks_append (a b : List TBlock) : ∀ n,
    (posBlocks n (a ++ b)).1 = (posBlocks n a).1 ++ (posBlocks (n + total (mc a)) b).1 := by
  induction a with
  | nil => intro n; simp [posBlocks, mc]
  | cons i a ih =>
    intro n
    simp only [List.cons_append, posBlocks, ih]
    rw [(posInsns_spec i.body n).2.2.1]
    have : mc (i :: a) = mcI i.body ++ mc a := rfl
    rw [this, total_append, Nat.add_assoc]

/-- Jumps whose offset is patched. -/
def isJump (o : Op) : Bool := o == .ja || o.condJmp

theorem relocInsn_nojump {bs : List PBlock} {i j : PInsn} (hn : isJump i.insn.op = false) (h : relocInsn bs i = .ok j) : j = i := by
  simp [isJump] at hn
  simp [relocInsn, hn] at h
  exact h.symm

theorem zip_nojump {bs : List PBlock} {a b : List PInsn} (h : Zip (fun i j => relocInsn bs i = .ok j) a b)
    (hn : ∀ i ∈ a, isJump i.insn.op = false) : b = a := by
  induction h with
  | nil => rfl
  | cons h _ ih =>
    rw [relocInsn_nojump (hn _ (List.mem_cons_self ..)) h, ih (fun i hi => hn i (List.mem_cons_of_mem _ hi))]

theorem zipInsns_pre {bs : List PBlock} {a b : List PInsn} (h : Zip (fun i j => relocInsn bs i = .ok j) a b) :
    Zip PSame (presOfI a) (presOfI b) := by
  induction h with
  | nil => exact .nil
  | cons h _ ih => exact (relocInsn_same h).1.append ih

theorem zipBlocks_pre {bs : List PBlock} {a b : List PBlock} (h : Zip (RelBlock bs) a b) :
    Zip PSame (presOf a) (presOf b) := by
  induction h with
  | nil => exact .nil
  | cons h _ ih => exact (zipInsns_pre h.2.2).append ih

/-- The final code around a piece `mid` of the body of a block. -/
theorem place {ts A B : List TBlock} {b : TBlock} {pre mid post : List TInsn} {code : List Slot}
    (hts : ts = A ++ b :: B) (hb : b.body = pre ++ (mid ++ post)) (he : emitT ts = .ok code) :
    ∃ mid' : List PInsn,
      Zip (fun i j => relocInsn (posBlocks 0 ts).1 i = .ok j)
        (posInsns (total (mc A) + total (mcI pre)) mid).1 mid' ∧
      At code (total (mc A) + total (mcI pre)) (slotsOf ((presOfI mid').map Prod.snd)) := by
  obtain ⟨rb, hr, -⟩ := Out.bind_eq_ok.1 he
  have hc := (emitT_char hr).1
  rw [he] at hc
  injection hc with hc
  obtain ⟨-, hz⟩ := relocBlocks_same hr
  generalize hall : (posBlocks 0 ts).1 = all at hz ⊢
  have hz : Zip (RelBlock all) (posBlocks 0 ts).1 rb := by rw [hall]; exact hz
  rw [hts, posBlocks_append, Nat.zero_add] at hz
  obtain ⟨A', R', rfl, hzA, hzR⟩ := hz.split
  simp only [posBlocks] at hzR
  cases hzR with
  | cons hb' hzB =>
    rename_i b' B' _
    obtain ⟨hid, hpos, hbody⟩ := hb'
    rw [hb, posInsns_append, posInsns_append] at hbody
    obtain ⟨pre', r', hb1, hzp, hzr⟩ := hbody.split
    obtain ⟨mid', post', hb2, hzm, hzq⟩ := hzr.split
    refine ⟨mid', hzm, ?_⟩
    have e1 : total ((presOf A').map Prod.snd) = total (mc A) := by
      rw [total_zip (zipBlocks_pre hzA), (posBlocks_spec A 0).2.1]
    have e2 : total ((presOfI pre').map Prod.snd) = total (mcI pre) := by
      rw [total_zip (zipInsns_pre hzp), (posInsns_spec pre _).2.1]
    have e3 : code = (slotsOf ((presOf A').map Prod.snd) ++ slotsOf ((presOfI pre').map Prod.snd)) ++
        (slotsOf ((presOfI mid').map Prod.snd) ++
          (slotsOf ((presOfI post').map Prod.snd) ++ slotsOf ((presOf B').map Prod.snd))) := by
      rw [hc]
      have : b'.body = pre' ++ (mid' ++ post') := by rw [hb1, hb2]
      simp [presOf, presOfI, this, List.append_assoc]
    have h00 : ∀ L, code = L → At code 0 L := by rintro L rfl; exact At.self _
    have h0 := h00 _ e3
    have h1 := h0.right.left
    rw [List.length_append, slotsOf_length, slotsOf_length, e1, e2, Nat.zero_add] at h1
    exact h1

/-- Straight-line pieces are placed unchanged. -/
theorem place_line {ts A B : List TBlock} {b : TBlock} {pre mid post : List TInsn} {code : List Slot}
    (hts : ts = A ++ b :: B) (hb : b.body = pre ++ (mid ++ post)) (he : emitT ts = .ok code)
    (hn : ∀ i ∈ mid, isJump i.insn.op = false) :
    At code (total (mc A) + total (mcI pre)) (slotsOf (mcI mid)) := by
  obtain ⟨mid', hz, hat⟩ := place hts hb he
  have hs := posInsns_spec mid (total (mc A) + total (mcI pre))
  have : mid' = (posInsns (total (mc A) + total (mcI pre)) mid).1 := by
    refine zip_nojump hz ?_
    intro i hi
    have : i.insn ∈ (posInsns (total (mc A) + total (mcI pre)) mid).1.map (·.insn) := List.mem_map.2 ⟨i, hi, rfl⟩
    rw [hs.2.2.2] at this
    obtain ⟨t, ht, he⟩ := List.mem_map.1 this
    rw [← he]; exact hn t ht
  rw [this, hs.2.1] at hat
  exact hat

/-- The block a patched jump goes to. -/
def jumpTarget (i : FInsn) : Nat := if i.op = .ja then i.bb1 else i.bb2

theorem relocInsn_jump {bs : List PBlock} {i j : PInsn} (hj : isJump i.insn.op = true) (h : relocInsn bs i = .ok j) :
    patch bs i (jumpTarget i.insn) = .ok j := by
  simp only [relocInsn] at h
  simp only [jumpTarget]
  split at h
  · rename_i e; rw [if_pos e]; exact h
  · rename_i e
    have : i.insn.op.condJmp = true := by
      simpa [isJump, e] using hj
    rw [if_pos this] at h
    rw [if_neg e]; exact h

/-- Jumps are placed with the offset to their target. -/
theorem place_jump {ts A B : List TBlock} {b : TBlock} {pre post : List TInsn} {i : TInsn} {p : Pre}
    {code : List Slot}
    (hts : ts = A ++ b :: B) (hb : b.body = pre ++ (i :: post)) (he : emitT ts = .ok code)
    (hj : isJump i.insn.op = true) (hp : i.tr = [p]) :
    ∃ tp, bbPos (posBlocks 0 ts).1 (jumpTarget i.insn) = .ok tp ∧
    At code (total (mc A) + total (mcI pre)) ({ p with off := jumpOff tp (total (mc A) + total (mcI pre)) } : Pre).slots := by
  obtain ⟨mid', hz, hat⟩ := place (mid := [i]) hts hb he
  simp only [posInsns, hp, posPres] at hz
  cases hz with
  | cons h1 h2 =>
    cases h2
    have := relocInsn_jump hj h1
    simp only [patch] at this
    obtain ⟨tp, h3, h4⟩ := Out.bind_eq_ok.1 this
    refine ⟨tp, h3, ?_⟩
    simp at h4
    subst h4
    simpa [presOfI] using hat

theorem bbPos_block {ts A B : List TBlock} {b : TBlock} (hts : ts = A ++ b :: B) (hnd : (ts.map (·.id)).Nodup) :
    bbPos (posBlocks 0 ts).1 b.id = .ok (total (mc A)) := by
  have h1 : (posBlocks 0 ts).1 = (posBlocks 0 A).1 ++ (posBlocks (0 + total (mc A)) (b :: B)).1 := by
    rw [hts, posBlocks_append]
  have h2 : (posBlocks 0 A).1.find? (fun c => c.id == b.id) = none := by
    rw [List.find?_eq_none]
    intro c hc hcb
    have hm : c.id ∈ A.map (·.id) := by
      rw [← (posBlocks_spec A 0).2.2.2]; exact List.mem_map.2 ⟨c, hc, rfl⟩
    simp at hcb
    rw [hts] at hnd
    simp [List.nodup_append] at hnd
    simp at hm
    obtain ⟨a, ha, hai⟩ := hm
    exact (hnd.2.2 a ha).1 (by rw [hai, hcb])
  simp only [bbPos, h1, List.find?_append, h2, Option.none_or, posBlocks, List.find?_cons, beq_self_eq_true]
  simp

theorem bbPos_inv {ts : List TBlock} {t tp : Nat} (h : bbPos (posBlocks 0 ts).1 t = .ok tp) :
    ∃ A b B, ts = A ++ b :: B ∧ b.id = t := by
  simp only [bbPos] at h
  split at h
  · rename_i c hc
    have hm := List.mem_of_find?_eq_some hc
    have hid := List.find?_some hc
    simp at hid
    have : t ∈ ts.map (·.id) := by
      rw [← (posBlocks_spec ts 0).2.2.2]; exact List.mem_map.2 ⟨c, hm, hid⟩
    obtain ⟨b, hb, he⟩ := List.mem_map.1 this
    obtain ⟨A, B, e⟩ := List.append_of_mem hb
    exact ⟨A, b, B, e, he⟩
  · simp at h

theorem code_length {ts : List TBlock} {code : List Slot} (he : emitT ts = .ok code) : code.length = total (mc ts) := by
  obtain ⟨rb, hr, -⟩ := Out.bind_eq_ok.1 he
  have hc := emitT_char hr
  rw [he] at hc
  injection hc.1 with hc1
  rw [hc1, slotsOf_length, hc.2.2, (posBlocks_spec ts 0).2.2.1, Nat.zero_add]

theorem jumpOff_toInt {t p : Nat} (h1 : (t : Int) - p - 1 < 32768) (h2 : -32768 ≤ (t : Int) - p - 1) :
    (p : Int) + 1 + (jumpOff t p).toInt = t := by
  rw [jumpOff, BitVec.toInt_ofInt]
  simp [Int.bmod]; omega

end Verif.Emit
