import Verif.Emit.Sim
import Verif.Layout.Props
import Verif.Norm.Props
/-!
# C06, C07, C09: from translated blocks to the instruction array
-/
set_option linter.unusedSimpArgs false
namespace Verif.Emit
open Verif Verif.Norm Verif.Bpf

/-- Number of slots of machine instructions. -/
def slotCount (ps : List Pre) : Nat := (ps.flatMap Pre.slots).length

theorem slotCount_eq (ps : List Pre) : slotCount ps = total ps := slotsOf_length ps

/-- Machine instructions of a translated block, in order. -/
def insnsOf (b : TBlock) : List Pre := b.body.flatMap (·.tr)

/-! ## C06 -/

theorem contig_get {qs : List PPre} : ∀ {n k : Nat} {m : Nat} {p : Pre}, Contig n qs → qs[k]? = some (m, p) →
    m = n + total ((qs.take k).map Prod.snd) := by
  induction qs with
  | nil => intro n k m p _ h; simp at h
  | cons q qs ih =>
    intro n k m p hc h
    cases k with
    | zero => simp at h; subst h; simpa using hc.1
    | succ k =>
      simp at h
      have := ih hc.2 h
      simp [this]; omega

/-- C06.  Once relocation has succeeded with the blocks `rb`, writing the array succeeds (no write is
out of bounds).  The array consists of the slots of the machine instructions, one after the other in
layout order; the machine instructions are those of the translation except for jump offsets; there are
exactly as many slots as counted; and each instruction stands at the position recorded for it. -/
theorem C06_emission (ts : List TBlock) (rb : List PBlock)
    (hr : relocBlocks (posBlocks 0 ts).1 (posBlocks 0 ts).1 = .ok rb) :
    ∃ (code : List Slot) (qs : List PPre), emitT ts = .ok code ∧ (qs : List PPre) = rb.flatMap (fun b => b.body.flatMap (·.tr)) ∧
      code = (qs.map Prod.snd).flatMap Pre.slots ∧
      code.length = (posBlocks 0 ts).2 ∧
      qs.length = (ts.flatMap insnsOf).length ∧
      (∀ (k : Nat) (p : Pre), (ts.flatMap insnsOf)[k]? = some p → ∃ o, (qs.map Prod.snd)[k]? = some { p with off := o }) ∧
      (∀ k n p, qs[k]? = some (n, p) → n = slotCount ((qs.take k).map Prod.snd)) := by
  obtain ⟨h1, h2, h3⟩ := emitT_char hr
  obtain ⟨z1, z2⟩ := relocBlocks_same hr
  obtain ⟨c1, c2, c3, c4⟩ := posBlocks_spec ts 0
  have hzip : Zip SameButOff (mc ts) ((presOf rb).map Prod.snd) := by
    rw [← c2]
    generalize presOf (posBlocks 0 ts).1 = a at z1
    generalize presOf rb = b at z1
    induction z1 with
    | nil => exact .nil
    | cons h _ ih => exact .cons h.2 ih
  have hmc : ts.flatMap insnsOf = mc ts := rfl
  refine ⟨_, presOf rb, h1, rfl, rfl, ?_, ?_, ?_, ?_⟩
  · rw [slotsOf_length, h3]
  · rw [hmc]
    generalize mc ts = a at hzip
    have : ((presOf rb).map Prod.snd).length = a.length := by
      generalize (presOf rb).map Prod.snd = b at hzip
      induction hzip with
      | nil => rfl
      | cons _ _ ih => simp [ih]
    simpa using this
  · rw [hmc]
    generalize (presOf rb).map Prod.snd = b at hzip
    generalize mc ts = a at hzip
    induction hzip with
    | nil => simp
    | cons h _ ih =>
      intro k p hk
      cases k with
      | zero => simp at hk; subst hk; exact ⟨_, by simp; exact h⟩
      | succ k => simp at hk; simpa using ih k p hk
  · intro k n p hk
    rw [slotCount_eq]
    have := contig_get h2 hk
    omega

/-! ## C07 -/

/-- C07.  In the emitted array, the slot of a jump whose target block is at a distance that fits in 16
bits is the translated jump with an offset that makes the machine continue at the first slot of the
target block.  Missing: larger distances, see below. -/
theorem C07_jump_partial (ts A B A' B' : List TBlock) (b t : TBlock) (pre post : List TInsn) (i : TInsn) (p : Pre)
    (code : List Slot)
    (hts : ts = A ++ b :: B) (hb : b.body = pre ++ i :: post)
    (hj : i.insn.op = .ja ∨ i.insn.op.condJmp = true) (hp : i.tr = [p])
    (htt : ts = A' ++ t :: B') (hid : t.id = if i.insn.op = .ja then i.insn.bb1 else i.insn.bb2)
    (hnd : (ts.map (·.id)).Nodup) (he : emitT ts = .ok code)
    (pos target : Nat)
    (hpos : pos = slotCount (A.flatMap insnsOf ++ pre.flatMap (·.tr)))
    (htarget : target = slotCount (A'.flatMap insnsOf))
    (hfit : -32768 ≤ (target : Int) - (pos + 1) ∧ (target : Int) - (pos + 1) < 32768) :
    ∃ s o, p.slots.head? = some s ∧ code[pos]? = some { s with off := o } ∧
      (pos : Int) + 1 + o.toInt = target := by
  have hj' : isJump i.insn.op = true := by
    rcases hj with h | h <;> simp [isJump, h]
  obtain ⟨tp, h1, h2⟩ := place_jump hts hb he hj' hp
  have h3 := bbPos_block htt hnd
  rw [hid] at h3
  have : jumpTarget i.insn = if i.insn.op = .ja then i.insn.bb1 else i.insn.bb2 := rfl
  rw [this, h3] at h1
  injection h1 with h1
  have e1 : pos = total (mc A) + total (mcI pre) := by rw [hpos, slotCount_eq, total_append]; rfl
  have e2 : target = total (mc A') := by rw [htarget, slotCount_eq]; rfl
  rw [← e1, ← h1, ← e2] at h2
  refine ⟨{ code := p.opcode, dst := BitVec.ofNat 4 p.dst, src := BitVec.ofNat 4 p.src, off := p.off,
            imm := match p.it with | .imm => p.imm | .imm64 => p.imm64.setWidth 32 }, jumpOff target pos, ?_, ?_, ?_⟩
  · cases hi : p.it <;> simp [Pre.slots, hi]
  · have := h2 0
    simp at this
    refine this _ ?_
    cases hi : p.it <;> simp [Pre.slots, hi]
  · exact jumpOff_toInt (by omega) (by omega)

/-- `r0 = 0`. -/
def filler : FInsn := { op := .assign, v0 := const32 0, valueNum := 1, dst := inReg 0, aluOp := .w64 }

/-- A jump over `n` instructions. -/
def farJump (n : Nat) : List FBlock :=
  [⟨0, [{ op := .ja, bb1 := 2 }]⟩, ⟨1, List.replicate n filler⟩, ⟨2, [{ op := .ret }]⟩]

def fillerP : Pre := { opcode := 0xb7 }

theorem lower_filler (n : Nat) : lowerBlock ⟨1, List.replicate n filler⟩ =
    .ok ⟨1, List.replicate n ⟨filler, [fillerP]⟩⟩ := by
  have h1 : mapCat normInsn (List.replicate n filler) = .ok (List.replicate n filler) := by
    induction n with
    | zero => rfl
    | succ n ih =>
      have : normInsn filler = .ok [filler] := by decide +kernel
      simp [List.replicate, mapCat, this, ih]
  have h2 : trInsns (List.replicate n filler) = .ok (List.replicate n ⟨filler, [fillerP]⟩) := by
    induction n with
    | zero => rfl
    | succ n ih =>
      have ht : trInsn filler = .ok [fillerP] := by decide +kernel
      have h3 : mapCat normInsn (List.replicate n filler) = .ok (List.replicate n filler) := by
        clear ih h1
        induction n with
        | zero => rfl
        | succ n ih =>
          have : normInsn filler = .ok [filler] := by decide +kernel
          simp [List.replicate, mapCat, this, ih]
      simp [List.replicate, trInsns, ht, ih h3]
  simp [lowerBlock, normBlock, h1, h2]

def farT (n : Nat) : List TBlock :=
  [⟨0, [⟨{ op := .ja, bb1 := 2 }, [jaP]⟩]⟩, ⟨1, List.replicate n ⟨filler, [fillerP]⟩⟩, ⟨2, [⟨{ op := .ret }, [exitP]⟩]⟩]

theorem lower_far (n : Nat) : lowerBlocks (farJump n) = .ok (farT n) := by
  have h0 : lowerBlock ⟨0, [{ op := .ja, bb1 := 2 }]⟩ = .ok ⟨0, [⟨{ op := .ja, bb1 := 2 }, [jaP]⟩]⟩ := by
    decide +kernel
  have h2 : lowerBlock ⟨2, [{ op := .ret }]⟩ = .ok ⟨2, [⟨{ op := .ret }, [exitP]⟩]⟩ := by decide +kernel
  simp only [lowerBlocks, farJump, lower_filler, h0, h2, farT, Out.ok_bind, Out.pure_eq]

theorem total_filler (n : Nat) : total (mcI (List.replicate n ⟨filler, [fillerP]⟩)) = n := by
  induction n with
  | zero => rfl
  | succ n ih =>
    have : mcI (List.replicate (n + 1) ⟨filler, [fillerP]⟩) = fillerP :: mcI (List.replicate n ⟨filler, [fillerP]⟩) := rfl
    rw [this, total_cons, ih]
    simp [width, fillerP]; omega

theorem reloc_nojump (bs : List PBlock) (is : List PInsn) (h : ∀ i ∈ is, isJump i.insn.op = false) :
    relocInsns bs is = .ok is := by
  induction is with
  | nil => rfl
  | cons i is ih =>
    have h1 := h i (List.mem_cons_self ..)
    simp [isJump] at h1
    simp [relocInsns, relocInsn, h1, ih (fun j hj => h j (List.mem_cons_of_mem _ hj))]

/-- C07 is violated: for every distance of at least 32768 slots (the program still passes
`check_total_insn`) the offset of the jump is not the distance to its target, and no error is reported
(`relocate`, core/ir_cg_norm.c:1265-1275, stores a `size_t` into the 16-bit field). -/
theorem C07_violated (n : Nat) (h1 : 32768 ≤ n) (h2 : n < 999998) :
    ∃ code s, emit (farJump n) = .ok code ∧ code.length = n + 2 ∧ code[0]? = some s ∧ s.code = 0x05 ∧
      0 + 1 + s.off.toInt ≠ (n : Int) + 1 ∧ code[n + 1]? = some ⟨0x95, 0, 0, 0, 0⟩ := by
  have hchk : checkTotal (farT n) = .ok () := by
    have hs : ∀ k : Nat, (List.replicate k 1).sum = k := by
      intro k
      induction k with
      | zero => rfl
      | succ k ih => simp [List.replicate, ih]; omega
    simp [checkTotal, farT, List.map_replicate, hs]
    omega
  have hid : (posBlocks 0 (farT n)).1.map (·.id) = [0, 1, 2] := (posBlocks_spec (farT n) 0).2.2.2
  -- relocation succeeds
  have hpos2 : bbPos (posBlocks 0 (farT n)).1 2 = .ok (n + 1) := by
    have := bbPos_block (ts := farT n) (A := (farT n).take 2) (b := ⟨2, [⟨{ op := .ret }, [exitP]⟩]⟩) (B := []) rfl
      (by simp [farT])
    rw [show (⟨2, [⟨{ op := .ret }, [exitP]⟩]⟩ : TBlock).id = 2 from rfl] at this
    rw [this]
    have e : mc ((farT n).take 2) = jaP :: mcI (List.replicate n ⟨filler, [fillerP]⟩) := by
      simp [farT, mc, mcI]
    rw [e, total_cons, total_filler]
    simp [width, jaP]; omega
  have hrel : ∃ rb, relocBlocks (posBlocks 0 (farT n)).1 (posBlocks 0 (farT n)).1 = .ok rb := by
    generalize hall : (posBlocks 0 (farT n)).1 = all at hpos2
    have : (posBlocks 0 (farT n)).1 = all := hall
    rw [farT] at this
    simp only [posBlocks, posInsns, posPres] at this
    rw [← this]
    simp only [relocBlocks]
    rw [this]
    have hf : relocInsns all (posInsns (0 + width jaP) (List.replicate n ⟨filler, [fillerP]⟩)).1 =
        .ok (posInsns (0 + width jaP) (List.replicate n ⟨filler, [fillerP]⟩)).1 := by
      refine reloc_nojump all _ ?_
      intro i hi
      have hm : i.insn ∈ (posInsns (0 + width jaP) (List.replicate n ⟨filler, [fillerP]⟩)).1.map (·.insn) :=
        List.mem_map.2 ⟨i, hi, rfl⟩
      rw [(posInsns_spec _ _).2.2.2] at hm
      simp at hm
      rw [hm.2]; rfl
    simp only [hf, Out.ok_bind]
    simp [relocInsns, relocInsn, patch, hpos2, Op.condJmp]
  obtain ⟨rb, hrb⟩ := hrel
  have hemit := (emitT_char hrb).1
  generalize hcode : slotsOf ((presOf rb).map Prod.snd) = code at hemit
  obtain ⟨tp, h5, h6⟩ := place_jump (ts := farT n) (A := []) (pre := []) (post := [])
    (i := ⟨{ op := .ja, bb1 := 2 }, [jaP]⟩) rfl rfl hemit rfl rfl
  simp only [jumpTarget, if_true] at h5
  rw [hpos2] at h5
  injection h5 with h5
  subst h5
  have h7 := place_line (ts := farT n) (A := (farT n).take 2) (b := ⟨2, [⟨{ op := .ret }, [exitP]⟩]⟩) (B := [])
    (pre := []) (mid := [⟨{ op := .ret }, [exitP]⟩]) (post := []) rfl rfl hemit (by simp [isJump, Op.condJmp])
  have e : total (mc ((farT n).take 2)) = n + 1 := by
    have e : mc ((farT n).take 2) = jaP :: mcI (List.replicate n ⟨filler, [fillerP]⟩) := by
      simp [farT, mc, mcI]
    rw [e, total_cons, total_filler]
    simp [width, jaP]; omega
  rw [e] at h7
  refine ⟨code, ⟨0x05, 0, 0, jumpOff (n + 1) 0, 0⟩, ?_, ?_, ?_, rfl, ?_, ?_⟩
  · simp [emit, lower_far, hchk, hemit]
  · rw [code_length hemit]
    have e : mc (farT n) = (jaP :: mcI (List.replicate n ⟨filler, [fillerP]⟩)) ++ [exitP] := by
      simp [farT, mc, mcI]
    rw [e, total_append, total_cons, total_filler]
    simp [width, jaP, exitP]; omega
  · exact h6.head
  · have hlt := BitVec.toInt_lt (x := jumpOff (n + 1) 0)
    simp at hlt
    simp only
    omega
  · exact h7.head

/-! ## C09 -/

/-- The flattened blocks `bs` stand in the order `l` and end the way the graph `g` says. -/
structure Matches (g : Layout.Graph) (l : List Nat) (bs : List FBlock) : Prop where
  ids : bs.map (·.id) = l
  cond : ∀ b ∈ bs, ∀ pre i, b.insns = pre ++ [i] → i.op.condJmp = true → (g b.id).last = .cond i.bb1 i.bb2
  ja : ∀ b ∈ bs, ∀ t, (g b.id).last = .ja t → ∃ pre i, b.insns = pre ++ [i] ∧ i.op = .ja ∧ i.bb1 = t
  condLast : ∀ b ∈ bs, ∀ pre i post, b.insns = pre ++ i :: post → i.op.condJmp = true → post = []

/-- Successor of a block that ends without a jump. -/
def succOf (g : Layout.Graph) (b : Nat) : Option Nat := match (g b).succs with | [t] => some t | _ => none

theorem next_block {bs A B : List FBlock} {b : FBlock} {c : Nat} (hbs : bs = A ++ b :: B)
    (hnd : (bs.map (·.id)).Nodup) (h : Layout.Next (bs.map (·.id)) b.id c) : ∃ d D, B = d :: D ∧ d.id = c := by
  obtain ⟨X, Y, hXY⟩ := h
  rw [hbs] at hXY hnd
  simp at hXY hnd
  have : ∀ (L X R Y : List Nat) (x : Nat), L ++ x :: R = X ++ x :: Y → (L ++ x :: R).Nodup → L = X ∧ R = Y := by
    intro L
    induction L with
    | nil =>
      intro X R Y x h hn
      cases X with
      | nil => simpa using h
      | cons y X =>
        simp at h
        obtain ⟨rfl, rfl⟩ := h
        simp at hn
    | cons a L ih =>
      intro X R Y x h hn
      cases X with
      | nil =>
        simp at h
        obtain ⟨rfl, rfl⟩ := h
        simp at hn
      | cons y X =>
        simp at h
        obtain ⟨rfl, h⟩ := h
        simp only [List.cons_append, List.nodup_cons] at hn
        obtain ⟨e1, e2⟩ := ih X R Y x h hn.2
        exact ⟨by rw [e1], e2⟩
  obtain ⟨-, e⟩ := this _ _ _ _ _ hXY hnd
  cases B with
  | nil => simp at e
  | cons d D => simp at e; exact ⟨d, D, rfl, e.1⟩

theorem laid_of_layout {g : Layout.Graph} {entry : Nat} {l : List Nat} {bs : List FBlock}
    (hm : Matches g l bs)
    (hnd : l.Nodup) (hcond : ∀ b ∈ l, ∀ t f, (g b).last = .cond t f → (g b).succs = [t, f])
    (hadj : ∀ b ∈ l, ∀ c, Layout.Falls g b c → Layout.Next l b c) : Laid bs (succOf g) := by
  have hmem : ∀ b ∈ bs, b.id ∈ l := fun b hb => by rw [← hm.ids]; exact List.mem_map.2 ⟨b, hb, rfl⟩
  refine ⟨by rw [hm.ids]; exact hnd, hm.condLast, ?_, ?_⟩
  · intro A b B i pre hbs hins hc
    have hb : b ∈ bs := by rw [hbs]; simp
    have h1 := hcond _ (hmem b hb) _ _ (hm.cond b hb pre i hins hc)
    have := hadj _ (hmem b hb) i.bb1 (Or.inr ⟨_, h1⟩)
    rw [← hm.ids] at this
    exact next_block hbs (by rw [hm.ids]; exact hnd) this
  · intro A b B t hbs hlast hs
    have hb : b ∈ bs := by rw [hbs]; simp
    have hs' : (g b.id).succs = [t] := by
      simp only [succOf] at hs
      split at hs
      · rename_i t' h; injection hs with hs; rw [h, hs]
      · simp at hs
    have hja : (g b.id).jaTo = none := by
      cases h : (g b.id).last with
      | ja t' =>
        obtain ⟨pre, i, e1, e2, -⟩ := hm.ja b hb t' h
        exact absurd e2 (hlast pre i e1).2.1
      | _ => simp [Layout.Blk.jaTo, h]
    have := hadj _ (hmem b hb) t (Or.inl ⟨hs', hja⟩)
    rw [← hm.ids] at this
    exact next_block hbs (by rw [hm.ids]; exact hnd) this

/-- C09.  Let `l` be the layout computed for a well-formed graph `g`, and `bs` the allocated blocks in
that order.  If emission succeeds with at most 32768 slots, then running the array from slot 0 and
running the blocks from the entry do the same: when the block program returns `x`, so does the machine,
with the same memory, the same registers other than r0 and the same trace of helper calls; when the
block program runs for ever, so does the machine; and the machine returns only what the block program
returns (unless the block program reaches an instruction without meaning).  Missing: the operand
patterns that C10–C14 exclude (`Plain`), builtin constants, and larger programs (C07). -/
theorem C09_refinement_partial (W : World) (g : Layout.Graph) (entry N fuel : Nat) (l : List Nat) (bs : List FBlock)
    (code : List Slot) (is : List FInsn)
    (hw : Layout.WF g entry N) (hl : Layout.layout g fuel entry = some (.ok l))
    (hcond : ∀ b ∈ l, ∀ t f, (g b).last = .cond t f → (g b).succs = [t, f])
    (hm : Matches g l bs) (hp : ∀ b ∈ bs, ∀ i ∈ b.insns, Plain i)
    (he : emit bs = .ok code) (hlen : code.length ≤ 32768) (hent : Flat.body bs entry = some is) (σ : St) :
    (∀ n x τ, Flat.runB W bs (succOf g) n entry is σ = .done x τ →
      ∃ m, Bpf.run W code m 0 σ = .done x (τ.set 0 x)) ∧
    ((∀ n, Flat.runB W bs (succOf g) n entry is σ = .running) →
      ∀ m, ∃ pc τ, Bpf.run W code m 0 σ = .goto pc τ) ∧
    (∀ m x τ', Bpf.run W code m 0 σ = .done x τ' →
      (∃ n τ, Flat.runB W bs (succOf g) n entry is σ = .done x τ ∧ τ' = τ.set 0 x) ∨
      ∃ n, Flat.runB W bs (succOf g) n entry is σ = .stuck) := by
  obtain ⟨l', h0, hnd, hfirst, -, hadj⟩ := Layout.C08_result g entry N fuel _ hw hl
  injection h0 with h0
  subst h0
  have hlaid : Laid bs (succOf g) := laid_of_layout (entry := entry) hm hnd hcond hadj
  simp only [emit] at he
  obtain ⟨ts, hlow, he⟩ := Out.bind_eq_ok.1 he
  obtain ⟨u, hchk, he⟩ := Out.bind_eq_ok.1 he
  obtain ⟨tp, μ, e1, e2, -⟩ := enter hlow hlaid.nodup hent
  have htp : tp = 0 := by
    rw [← hm.ids] at hfirst
    cases bs with
    | nil => simp at hfirst
    | cons b B =>
      simp at hfirst
      obtain ⟨TA, t, TB, hts, f1, f2, f3⟩ := lowerBlocks_split (A := []) rfl hlow
      simp [lowerBlocks] at f1
      subst f1
      have := bbPos_block hts (by rw [lowerBlocks_ids hlow]; exact hlaid.nodup)
      rw [(lowerBlock_eq f2).1, hfirst, e1] at this
      injection this
  subst htp
  have hdone := fun n x τ => sim_done (W := W) hlaid hp hlow he hlen n entry is 0 μ σ x τ e2
  have hrun := fun hr m => sim_running (W := W) hlaid hp hlow he hlen m μ entry is 0 σ e2 hr
  refine ⟨hdone, hrun, ?_⟩
  intro m x τ' hm'
  by_cases hall : ∀ n, Flat.runB W bs (succOf g) n entry is σ = .running
  · obtain ⟨pc, τ, h⟩ := hrun hall m
    have h : run W code m 0 σ = .goto pc τ := h
    rw [hm'] at h
    simp at h
  · rw [Classical.not_forall] at hall
    obtain ⟨n, hn⟩ := hall
    cases hr : Flat.runB W bs (succOf g) n entry is σ with
    | running => exact absurd hr hn
    | stuck => exact Or.inr ⟨n, hr⟩
    | done y τ =>
      left
      obtain ⟨m2, h2⟩ := hdone n y τ hr
      have h2 : run W code m2 0 σ = .done y (τ.set 0 y) := h2
      have mono : ∀ (a b : Nat) (pc : Int) (σ : St) (x : BitVec 64) (τ : St), run W code a pc σ = .done x τ →
          run W code (a + b) pc σ = .done x τ := by
        intro a
        induction a with
        | zero => intro b pc σ x τ h; simp [run] at h
        | succ a ih =>
          intro b pc σ x τ h
          rw [show a + 1 + b = (a + b) + 1 by omega]
          simp only [run] at h ⊢
          cases hs : step W code pc σ <;> simp only [hs] at h ⊢
          · exact ih b _ _ _ _ h
          · exact h
          · simp at h
      have h3 := mono m m2 _ _ _ _ hm'
      have h4 := mono m2 m _ _ _ _ h2
      rw [Nat.add_comm] at h4
      rw [h3] at h4
      injection h4 with h5 h6
      subst h5
      exact ⟨n, τ, hr, h6⟩

/-! ### A concrete program meeting the hypotheses of C09: sum the numbers r1, r1-1, ..., 1 -/

def exBlocks : List FBlock :=
  [⟨0, [{ op := .assign, v0 := const32 0, valueNum := 1, dst := inReg 2, aluOp := .w64 }]⟩,
   ⟨1, [{ op := .jeq, v0 := .pos (inReg 1), v1 := const32 0, valueNum := 2, aluOp := .w64, bb1 := 2, bb2 := 3 }]⟩,
   ⟨2, [{ op := .add, v0 := .pos (inReg 2), v1 := .pos (inReg 1), valueNum := 2, aluOp := .w64, dst := inReg 2 },
        { op := .sub, v0 := .pos (inReg 1), v1 := const32 1, valueNum := 2, aluOp := .w64, dst := inReg 1 },
        { op := .ja, bb1 := 1 }]⟩,
   ⟨3, [{ op := .ret, v0 := .pos (inReg 2), valueNum := 1 }]⟩]

def exCode : List Slot :=
  [⟨0xb7, 2, 0, 0, 0⟩, ⟨0x15, 1, 0, 3, 0⟩, ⟨0x0f, 2, 1, 0, 0⟩, ⟨0x17, 1, 0, 0, 1⟩, ⟨0x05, 0, 0, -4, 0⟩,
   ⟨0xbf, 0, 2, 0, 0⟩, ⟨0x95, 0, 0, 0, 0⟩]

theorem exBlocks_emit : emit exBlocks = .ok exCode := by decide +kernel

/-- The hypotheses of C06 and C07 are met: the loop lowers to blocks whose relocation succeeds, and the
jump back (slot 4) gets offset -4, the forward jump (slot 1) offset 3. -/
example : ∃ ts, lowerBlocks exBlocks = .ok ts ∧
    (∃ rb, relocBlocks (posBlocks 0 ts).1 (posBlocks 0 ts).1 = .ok rb) ∧ (posBlocks 0 ts).2 = 7 ∧
    (ts.map (·.id)).Nodup ∧ emitT ts = .ok exCode := by
  have h : ∃ ts, lowerBlocks exBlocks = .ok ts := by
    cases h : lowerBlocks exBlocks with
    | ok ts => exact ⟨ts, rfl⟩
    | _ => exact absurd h (by decide +kernel)
  obtain ⟨ts, h⟩ := h
  have e := exBlocks_emit
  simp only [emit, h, Out.ok_bind] at e
  obtain ⟨_, -, e⟩ := Out.bind_eq_ok.1 e
  refine ⟨ts, h, ?_, ?_, ?_, e⟩
  · simp only [emitT] at e
    cases hr : relocBlocks (posBlocks 0 ts).1 (posBlocks 0 ts).1 with
    | ok rb => exact ⟨rb, rfl⟩
    | _ => simp [hr] at e
  · have := code_length e
    rw [(posBlocks_spec ts 0).2.2.1, ← this]; rfl
  · rw [lowerBlocks_ids h]; decide

theorem exBlocks_matches : Matches Layout.exLoop [0, 1, 2, 3] exBlocks := by
  refine ⟨rfl, ?_, ?_, ?_⟩
  · intro b hb pre i hi hc
    simp [exBlocks] at hb
    rcases hb with rfl | rfl | rfl | rfl <;> simp only at hi <;>
      (have := congrArg List.getLast? hi; simp at this; subst this; simp [Op.condJmp] at hc) <;> rfl
  · intro b hb t ht
    simp [exBlocks] at hb
    rcases hb with rfl | rfl | rfl | rfl <;> simp [Layout.exLoop] at ht
    subst ht
    exact ⟨_, _, (by exact rfl : _ = [_, _] ++ [_]), rfl, rfl⟩
  · intro b hb pre i post hi hc
    simp [exBlocks] at hb
    have key : ∀ (l : List FInsn), (∀ j ∈ l.dropLast, j.op.condJmp = false) → l = pre ++ i :: post → post = [] := by
      intro l hl e
      cases post with
      | nil => rfl
      | cons q post =>
        exfalso
        have : i ∈ l.dropLast := by
          rw [e, List.dropLast_append_of_ne_nil (by simp)]; simp
        rw [hl i this] at hc; simp at hc
    rcases hb with rfl | rfl | rfl | rfl <;> refine key _ ?_ hi <;> simp [Op.condJmp]

theorem exBlocks_plain : ∀ b ∈ exBlocks, ∀ i ∈ b.insns, Plain i := by
  intro b hb i hi
  simp [exBlocks] at hb
  rcases hb with rfl | rfl | rfl | rfl <;> simp at hi
  · subst hi; simp [Plain, ValOk, ConstOk, PosOk, const32, FVal.ctype]
  · subst hi
    simp [Plain, Op.condJmp, const32]
    rintro _ _ _ _ - rfl - - -
    decide
  · rcases hi with rfl | rfl | rfl
    · simp [Plain, Op.condJmp, ValOk, PosOk, DropsAdd0, SubSelf]
    · simp [Plain, Op.condJmp, ValOk, PosOk, ConstOk, DropsAdd0, SubSelf, const32]
    · simp [Plain]
  · subst hi; simp [Plain]

/-- With r1 = 4 the emitted code returns 10. -/
example : (match Bpf.run noWorld exCode 40 0 (ones.set 1 4) with | .done x _ => some x | _ => none) = some 10 := by
  decide +kernel

/-- For every start state the emitted loop returns what the block program returns. -/
example (W : World) (σ : St) (n : Nat) (x : BitVec 64) (τ : St)
    (h : Flat.runB W exBlocks (succOf Layout.exLoop) n 0 (exBlocks[0]!).insns σ = .done x τ) :
    ∃ m, Bpf.run W exCode m 0 σ = .done x (τ.set 0 x) :=
  (C09_refinement_partial W Layout.exLoop 0 4 20 [0, 1, 2, 3] exBlocks exCode _ Layout.exLoop_wf (by decide)
    (by intro b hb t f; simp at hb; rcases hb with rfl | rfl | rfl | rfl <;> simp [Layout.exLoop])
    exBlocks_matches exBlocks_plain exBlocks_emit (by decide) rfl σ).1 n x τ h

end Verif.Emit
