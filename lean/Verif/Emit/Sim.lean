import Verif.Emit.Norm
/-! # Simulation of block programs by the emitted code (helper lemmas) -/
set_option linter.unusedSimpArgs false
namespace Verif.Emit
open Verif Verif.Norm Verif.Bpf

/-- The operand conditions under which C10–C14 are proved: what they exclude is exactly what the
`_violated` theorems of `Verif/Norm/Props.lean` show to be miscompiled (or constants and stack offsets
outside the encodable range). -/
def Plain (i : FInsn) : Prop :=
  match i.op with
  | .alloc | .allocarray | .loadimm | .call | .ja => True
  | .assign => i.valueNum = 1 ∧ ValOk i.v0 ∧ PosOk i.dst ∧ (∀ k c b, i.v0 ≠ .const k c .unknown b) ∧
      (posType i.dst = .stack → i.v0.ctype ≠ .w64) ∧
      (i.aluOp = .w32 → i.v0.ctype = .w32 ∧ posType i.dst = .reg) ∧
      (∀ p, i.v0 = .pos p → posType p = .stack → i.vrType = .t64)
  | .neg | .htobe | .htole => i.valueNum = 1
  | .store => i.aluOp ≠ .w32 ∧ ValOk i.v1 ∧ (∀ p, i.v0 = .pos p → PosOk p) ∧
      (∀ k c b, i.v1 ≠ .const k c .unknown b) ∧
      (∀ p, i.v0 = .pos p → posType p = .stack → i.v1.ctype ≠ .w64) ∧
      (∀ p, i.v1 = .pos p → posType p = .stack → i.vrType = .t64)
  | .load => i.valueNum = 1 ∧ (∃ p, i.v0 = .pos p ∧ PosOk p ∧ (posType p = .reg → i.vrType = .t64)) ∧ PosOk i.dst
  | .loadraw => (∀ k c ct b, i.addr ≠ .const k c ct b) ∧
      (∀ p, i.addr = .pos p → posType p = .stack →
        -32768 ≤ i.addrOff.toInt + p.spilled ∧ i.addrOff.toInt + p.spilled < 32768)
  | .storeraw => i.valueNum = 1 ∧
      (∀ p, i.addr = .pos p → posType p = .stack →
        -32768 ≤ i.addrOff.toInt + p.spilled ∧ i.addrOff.toInt + p.spilled < 32768) ∧
      (∀ k c ct b, i.v0 = .const k c ct b → i.vrType = .t64 → (c.setWidth 32).signExtend 64 = c)
  | .getelemptr => i.valueNum = 2 ∧ i.dst.reg ≠ 10 ∧ (∀ p, i.v1 = .pos p → PosOk p) ∧
      (∀ k c ct b, i.v0 = .const k c ct b →
        -2147483648 < (c + BitVec.ofInt 64 i.v1.spillOf).toInt ∧
        (c + BitVec.ofInt 64 i.v1.spillOf).toInt < 2147483648)
  | .ret => (i.valueNum = 0 ∨ i.valueNum = 1) ∧
      (i.valueNum = 1 → ∀ k c ct b, i.v0 = .const k c ct b → (c.setWidth 32).signExtend 64 = c)
  | _ =>
    if i.op.condJmp then
      i.valueNum = 2 ∧
      (∀ k v ct b, i.v0 = .const k v ct b → ct ≠ .w64 → (v.setWidth 32).signExtend 64 = v) ∧
      (∀ k v ct b, i.v1 = .const k v ct b → ct ≠ .w64 → (v.setWidth 32).signExtend 64 = v) ∧
      (∀ k v ct b k' v' ct' b', i.v0 = .const k v ct b → i.v1 = .const k' v' ct' b' →
        i.aluOp = .w32 → ct ≠ .w64 ∧ ct' ≠ .w64)
    else i.valueNum = 2 ∧ ValOk i.v0 ∧ ValOk i.v1 ∧ ¬ DropsAdd0 i ∧ ¬ SubSelf i

theorem exec_sound {W : World} {i : FInsn} {σ σ' : St} {ps : List Pre} (hg : Plain i)
    (h1 : isJump i.op = false) (h2 : i.op ≠ .ret)
    (hs : Flat.exec W i σ = some σ') (hl : lower i = .ok ps) : execP W ps σ = some σ' := by
  have halu : ∀ a, Flat.aluOp i.op = some a →
      (i.valueNum = 2 ∧ ValOk i.v0 ∧ ValOk i.v1 ∧ ¬ DropsAdd0 i ∧ ¬ SubSelf i) → execP W ps σ = some σ' :=
    fun a ha ⟨g1, g2, g3, g4, g5⟩ => lower_alu ha g1 g2 g3 g4 g5 hs hl
  cases ho : i.op <;> simp only [Plain, ho] at hg
  case alloc | allocarray =>
    simp [lower, normInsn, ho, mapCat_cons, trInsn] at hl
    simp [Flat.exec, ho] at hs
    subst hl hs; simp
  case loadimm => exact lower_loadimm ho hs hl
  case call => exact lower_call ho hs hl
  case ja | jeq | jgt | jge | jlt | jle | jne | jsge | jsle | jsgt | jslt => simp [isJump, ho, Op.condJmp] at h1
  case ret => exact absurd ho h2
  case assign =>
    obtain ⟨g1, g2, g3, g4, g5, g6, g7⟩ := hg
    exact lower_assign ho g1 g2 g3 g4 g5 g6 g7 hs hl
  case neg => exact lower_neg ho hg hs hl
  case htobe => exact lower_end (Or.inl ho) hg hs hl
  case htole => exact lower_end (Or.inr ho) hg hs hl
  case store =>
    obtain ⟨g1, g2, g3, g4, g5, g6⟩ := hg
    exact lower_store ho g1 g2 g3 g4 g5 g6 hs hl
  case load =>
    obtain ⟨g1, ⟨p, g2, g3, g4⟩, g5⟩ := hg
    refine lower_load ho g1 ⟨p, g2, g3⟩ g5 ?_ hs hl
    intro q n hq hr hb
    rw [g2] at hq
    injection hq with hq
    subst hq
    rw [g4 hr] at hb
    simp [Flat.bytes] at hb
    subst hb
    simp [Flat.truncBytes]
  case loadraw => exact lower_loadraw ho hg.1 hg.2 hs hl
  case storeraw => exact lower_storeraw ho hg.1 hg.2.1 hg.2.2 hs hl
  case getelemptr => exact lower_getelemptr ho hg.1 hg.2.1 hg.2.2.1 hg.2.2.2 hs hl
  case throw | phi | reg | funarg | ecall => simp [Flat.exec, ho, Flat.aluOp] at hs
  all_goals exact halu _ (by rw [ho]; rfl) (by simpa [Op.condJmp] using hg)

/-- A block program laid out so that it can run in list order: names are distinct, conditional jumps
only end blocks, and where control can continue without a jump, it continues in the next block. -/
structure Laid (bs : List Flat.Block) (succ : Nat → Option Nat) : Prop where
  nodup : (bs.map (·.id)).Nodup
  last : ∀ b ∈ bs, ∀ pre i post, b.insns = pre ++ i :: post → i.op.condJmp = true → post = []
  fall : ∀ A b B i pre, bs = A ++ b :: B → b.insns = pre ++ [i] → i.op.condJmp = true →
    ∃ c C, B = c :: C ∧ c.id = i.bb1
  through : ∀ A b B t, bs = A ++ b :: B →
    (∀ pre i, b.insns = pre ++ [i] → i.op.condJmp = false ∧ i.op ≠ .ja ∧ i.op ≠ .ret) →
    succ b.id = some t → ∃ c C, B = c :: C ∧ c.id = t

theorem body_find {bs A B : List Flat.Block} {b : Flat.Block} (hbs : bs = A ++ b :: B)
    (hnd : (bs.map (·.id)).Nodup) : Flat.body bs b.id = some b.insns := by
  have h2 : A.find? (fun c => c.id == b.id) = none := by
    rw [List.find?_eq_none]
    intro c hc hcb
    simp at hcb
    rw [hbs] at hnd
    simp [List.nodup_append] at hnd
    exact (hnd.2.2 c hc).1 hcb
  simp [Flat.body, hbs, List.find?_append, h2]

theorem body_inv {bs : List Flat.Block} {t : Nat} {is : List FInsn} (h : Flat.body bs t = some is) :
    ∃ A b B, bs = A ++ b :: B ∧ b.id = t ∧ b.insns = is := by
  simp only [Flat.body, Option.map_eq_some_iff] at h
  obtain ⟨b, h1, h2⟩ := h
  have hm := List.mem_of_find?_eq_some h1
  have hid := List.find?_some h1
  simp at hid
  obtain ⟨A, B, e⟩ := List.append_of_mem hm
  exact ⟨A, b, B, e, hid, h2⟩

/-- Number of instructions and block ends. -/
def size (bs : List FBlock) : Nat := (bs.map (fun b => b.insns.length + 1)).sum

/-- Control is in block `cur` with instructions `rest` left, and the machine at the matching slot; `μ`
counts what is ahead in layout order. -/
structure At' (bs : List FBlock) (ts : List TBlock) (cur : Nat) (rest : List FInsn) (pc μ : Nat) : Prop where
  ex : ∃ A b B TA t TB pre tpre trest, bs = A ++ b :: B ∧ ts = TA ++ t :: TB ∧ b.id = cur ∧
    b.insns = pre ++ rest ∧ t.body = tpre ++ trest ∧ lowerIs rest = .ok trest ∧
    lowerBlocks B = .ok TB ∧ pc = total (mc TA) + total (mcI tpre) ∧
    (∀ q i, pre = q ++ [i] → i.op.condJmp = false ∧ i.op ≠ .ja ∧ i.op ≠ .ret) ∧
    μ = size B + rest.length

theorem enter {bs : List FBlock} {ts : List TBlock} {t : Nat} {is : List FInsn} (hl : lowerBlocks bs = .ok ts)
    (hnd : (bs.map (·.id)).Nodup) (hb : Flat.body bs t = some is) :
    ∃ tp μ, bbPos (posBlocks 0 ts).1 t = .ok tp ∧ At' bs ts t is tp μ ∧ tp ≤ total (mc ts) := by
  obtain ⟨A, b, B, hbs, hid, hins⟩ := body_inv hb
  obtain ⟨TA, u, TB, hts, e1, e2, e3⟩ := lowerBlocks_split hbs hl
  obtain ⟨f1, f2⟩ := lowerBlock_eq e2
  have := bbPos_block hts (by rw [lowerBlocks_ids hl]; exact hnd)
  rw [f1, hid] at this
  refine ⟨_, _, this, ⟨A, b, B, TA, u, TB, [], [], u.body, hbs, hts, hid, hins, rfl, by rw [← hins]; exact f2, e3, ?_, by simp, rfl⟩, ?_⟩
  · simp [mcI]
  · rw [hts]
    have : mc (TA ++ u :: TB) = mc TA ++ mc (u :: TB) := by simp [mc]
    rw [this, total_append]; omega

theorem slotsOf_single {p : Pre} {s : Slot} (h : p.slots = [s]) (o : BitVec 16) :
    ({ p with off := o } : Pre).slots = [{ s with off := o }] := by
  cases hi : p.it <;> simp [Pre.slots, hi] at h ⊢
  subst h
  exact ⟨rfl, rfl, rfl, rfl⟩

theorem lowerIs_cons {i : FInsn} {is : List FInsn} {r : List TInsn} (h : lowerIs (i :: is) = .ok r) :
    ∃ a b, lowerI i = .ok a ∧ lowerIs is = .ok b ∧ r = a ++ b := by
  simp only [lowerIs] at h
  obtain ⟨a, h1, h⟩ := Out.bind_eq_ok.1 h
  obtain ⟨b, h2, h⟩ := Out.bind_eq_ok.1 h
  simp at h; subst h
  exact ⟨a, b, h1, h2, rfl⟩

/-- The machine reaches the target of a jump it takes. -/
theorem step_jump {W : World} {bs : List FBlock} {ts : List TBlock} {code : List Slot} {t : Nat} {is : List FInsn}
    {TA TB : List TBlock} {u : TBlock} {tpre tpost : List TInsn} {ti : TInsn} {p : Pre} {σ : St} {b : Bool}
    (hl : lowerBlocks bs = .ok ts) (hnd : (bs.map (·.id)).Nodup) (he : emitT ts = .ok code)
    (hlen : code.length ≤ 32768) (hb : Flat.body bs t = some is)
    (hts : ts = TA ++ u :: TB) (hu : u.body = tpre ++ (ti :: tpost)) (hj : isJump ti.insn.op = true)
    (htgt : jumpTarget ti.insn = t) (hp : ti.tr = [p]) (hs : JumpSlot W p σ b) :
    ∃ tp μ, At' bs ts t is tp μ ∧
      step W code ((total (mc TA) + total (mcI tpre) : Nat) : Int) σ =
        .goto (if b then (tp : Int) else (total (mc TA) + total (mcI tpre) : Nat) + 1) σ := by
  obtain ⟨tp, μ, h1, h2, h3⟩ := enter hl hnd hb
  obtain ⟨tp', h4, h5⟩ := place_jump hts hu he hj hp
  rw [htgt, h1] at h4
  injection h4 with h4
  subst h4
  refine ⟨tp, μ, h2, ?_⟩
  obtain ⟨s, h6, h7⟩ := hs
  rw [slotsOf_single h6] at h5
  have hat := h5.head
  rw [h7 _ _ _ hat]
  have hlt : total (mc TA) + total (mcI tpre) < code.length := by
    rcases Nat.lt_or_ge (total (mc TA) + total (mcI tpre)) code.length with h | h
    · exact h
    · simp [List.getElem?_eq_none h] at hat
  rw [← code_length he] at h3
  rw [jumpOff_toInt (by omega) (by omega)]

/-- One step of the block program. -/
theorem sim_goto {bs : List FBlock} {ts : List TBlock} {c : FBlock} {A B : List FBlock} {b : FBlock}
    {C : List FBlock} {TA TB : List TBlock} {u : TBlock} {tpre : List TInsn}
    (hnd : (bs.map (·.id)).Nodup) {is : List FInsn} {t : Nat} (hb : Flat.body bs t = some is)
    (hbs : bs = A ++ b :: B) (hB : B = c :: C) (hc : c.id = t)
    (hts : ts = TA ++ u :: TB) (hu : u.body = tpre) (hTB : lowerBlocks B = .ok TB) :
    ∃ μ, At' bs ts t is (total (mc TA) + total (mcI tpre)) μ ∧ μ < size B := by
  subst hB
  obtain ⟨TA', v, TB', hTB', e1, e2, e3⟩ := lowerBlocks_split (A := []) rfl hTB
  simp [lowerBlocks] at e1
  subst e1
  obtain ⟨f1, f2⟩ := lowerBlock_eq e2
  have hbs' : bs = (A ++ [b]) ++ c :: C := by rw [hbs]; simp
  have := body_find hbs' hnd
  rw [hc, hb] at this
  injection this with this
  refine ⟨size C + is.length, ⟨A ++ [b], c, C, TA ++ [u], v, TB', [], [], v.body, hbs', ?_, hc, this.symm, rfl, ?_, e3, ?_,
    by simp, rfl⟩, by simp [size, this]; omega⟩
  · rw [hts, hTB']; simp
  · rw [this]; exact f2
  · simp [mc, mcI, hu]

/-- One step of the block program is matched by machine steps, at least one unless control moved
forward in the layout. -/
theorem sim_step {W : World} {bs : List FBlock} {ts : List TBlock} {code : List Slot} {succ : Nat → Option Nat}
    (hlay : Laid bs succ) (hg : ∀ b ∈ bs, ∀ i ∈ b.insns, Plain i)
    (hl : lowerBlocks bs = .ok ts) (he : emitT ts = .ok code) (hlen : code.length ≤ 32768)
    {cur : Nat} {rest : List FInsn} {pc μ : Nat} {σ : St} (hat : At' bs ts cur rest pc μ) :
    (∀ x, Flat.stepB W bs succ cur rest σ = .done x → ∃ m, run W code m pc σ = .done x (σ.set 0 x)) ∧
    (∀ cur' rest' σ', Flat.stepB W bs succ cur rest σ = .goto cur' rest' σ' →
      ∃ k pc' μ', At' bs ts cur' rest' pc' μ' ∧ (∀ m, run W code (k + m) pc σ = run W code m pc' σ') ∧
        (0 < k ∨ μ' < μ)) := by
  obtain ⟨A, b, B, TA, u, TB, pre, tpre, trest, hbs, hts, hid, hins, hu, hrest, hTB, hpc, hlast, hμ⟩ := hat.ex
  have hent : ∀ t σ c r s, Flat.enter bs t σ = .goto c r s → t = c ∧ Flat.body bs t = some r ∧ s = σ := by
    intro t σ c r s h
    simp only [Flat.enter] at h
    split at h
    · rename_i is hb
      injection h with h1 h2 h3
      subst h1 h2 h3
      exact ⟨rfl, hb, rfl⟩
    · simp at h
  have hentd : ∀ t σ x, Flat.enter bs t σ ≠ .done x := by
    intro t σ x h
    simp only [Flat.enter] at h
    split at h <;> simp at h
  cases rest with
  | nil =>
    simp only [Flat.stepB]
    cases hsucc : succ cur with
    | none => simp
    | some t =>
      refine ⟨fun x h => absurd h (hentd _ _ _), fun cur' rest' σ' h => ?_⟩
      obtain ⟨rfl, hb, rfl⟩ := hent _ _ _ _ _ h
      simp [lowerIs] at hrest
      subst hrest
      obtain ⟨c, C, hB, hc⟩ := hlay.through A b B t hbs (by rw [hins, List.append_nil]; exact hlast)
        (by rw [hid]; exact hsucc)
      obtain ⟨μ', h1, h2⟩ := sim_goto hlay.nodup hb hbs hB hc hts (by simpa using hu) hTB
      rw [← hpc] at h1
      exact ⟨0, pc, μ', h1, by simp, Or.inr (by omega)⟩
  | cons i rest =>
    have hbm : b ∈ bs := by rw [hbs]; simp
    have hgi : Plain i := hg b hbm i (by rw [hins]; simp)
    obtain ⟨a, tr, hli, hlr, rfl⟩ := lowerIs_cons hrest
    have hlow := lowerI_lower hli
    simp only [Flat.stepB]
    by_cases hja : i.op = .ja
    · simp only [if_pos hja]
      refine ⟨fun x h => absurd h (hentd _ _ _), fun cur' rest' σ' h => ?_⟩
      obtain ⟨rfl, hb, rfl⟩ := hent _ _ _ _ _ h
      have := lowerI_ja hja hli
      subst this
      obtain ⟨tp, μ', h1, h2⟩ := step_jump (W := W) (σ := σ') (b := true) hl hlay.nodup he hlen hb hts hu
        (by simp [isJump, hja]) (by simp [jumpTarget, hja]) rfl jumpSlot_ja
      refine ⟨1, tp, μ', h1, fun m => ?_, Or.inl (by omega)⟩
      rw [show 1 + m = m + 1 by omega, run, hpc, h2]
      rfl
    · simp only [if_neg hja]
      by_cases hcj : i.op.condJmp = true
      · simp only [if_pos hcj]
        obtain ⟨c, hc⟩ : ∃ c, Flat.condOp i.op = some c := by
          cases ho : i.op <;> simp [ho, Op.condJmp] at hcj <;> simp [Flat.condOp]
        have hgc : i.valueNum = 2 ∧
            (∀ k v ct b, i.v0 = .const k v ct b → ct ≠ .w64 → (v.setWidth 32).signExtend 64 = v) ∧
            (∀ k v ct b, i.v1 = .const k v ct b → ct ≠ .w64 → (v.setWidth 32).signExtend 64 = v) ∧
            (∀ k v ct b k' v' ct' b', i.v0 = .const k v ct b → i.v1 = .const k' v' ct' b' →
              i.aluOp = .w32 → ct ≠ .w64 ∧ ct' ≠ .w64) := by
          cases ho : i.op <;> simp [ho, Op.condJmp] at hcj <;> simpa [Plain, ho, Op.condJmp] using hgi
        obtain ⟨g1, g2, g3, g4⟩ := hgc
        have hpost : rest = [] := hlay.last b hbm pre i rest hins hcj
        subst hpost
        obtain ⟨d, C, hB, hd⟩ := hlay.fall A b B i pre hbs hins hcj
        simp [lowerIs] at hlr
        subst hlr
        have fallat : ∀ is, Flat.body bs i.bb1 = some is →
            ∃ μ', At' bs ts i.bb1 is (total (mc TA) + total (mcI (tpre ++ a))) μ' ∧ μ' < size B := fun is hb =>
          sim_goto hlay.nodup hb hbs hB hd hts (by simpa using hu) hTB
        cases htk : Flat.taken i σ with
        | none => simp
        | some bb =>
          rcases lower_condjmp (W := W) hc g1 g2 g3 g4 htk hlow with ⟨hnil, rfl⟩ | ⟨p, hps, hjs⟩
          · -- the jump was erased
            simp only
            refine ⟨fun x h => absurd h (hentd _ _ _), fun cur' rest' σ' h => ?_⟩
            obtain ⟨rfl, hb, rfl⟩ := hent _ _ _ _ _ h
            obtain ⟨μ', h1, h2⟩ := fallat _ hb
            have e : mcI (tpre ++ a) = mcI tpre ++ mcI a := by simp [mcI]
            rw [e, hnil, List.append_nil, ← hpc] at h1
            exact ⟨0, pc, μ', h1, by simp, Or.inr (by simp at hμ; omega)⟩
          · rcases lowerI_cond hcj hli with rfl | ⟨ti, rfl, hj, htgt⟩
            · simp [mcI] at hps
            have htr : ti.tr = [p] := by simpa [mcI] using hps
            cases bb with
            | true =>
              simp only
              refine ⟨fun x h => absurd h (hentd _ _ _), fun cur' rest' σ' h => ?_⟩
              obtain ⟨rfl, hb, rfl⟩ := hent _ _ _ _ _ h
              obtain ⟨tp, μ', h1, h2⟩ := step_jump (W := W) hl hlay.nodup he hlen hb hts hu hj htgt htr hjs
              refine ⟨1, tp, μ', h1, fun m => ?_, Or.inl (by omega)⟩
              rw [show 1 + m = m + 1 by omega, run, hpc, h2]
              rfl
            | false =>
              simp only
              refine ⟨fun x h => absurd h (hentd _ _ _), fun cur' rest' σ' h => ?_⟩
              obtain ⟨rfl, hb, rfl⟩ := hent _ _ _ _ _ h
              obtain ⟨tp', h4, h5⟩ := place_jump hts hu he hj htr
              obtain ⟨s, h6, h7⟩ := hjs
              rw [slotsOf_single h6] at h5
              have hst := h7 _ _ _ h5.head
              obtain ⟨μ', hat', -⟩ := fallat _ hb
              have hw : total (mcI (tpre ++ [ti])) = total (mcI tpre) + 1 := by
                have e : mcI (tpre ++ [ti]) = mcI tpre ++ [p] := by simp [mcI, htr]
                rw [e, total_append, total_cons, ← slots_length, h6]; rfl
              rw [hw] at hat'
              refine ⟨1, _, μ', hat', fun m => ?_, Or.inl (by omega)⟩
              rw [show 1 + m = m + 1 by omega, run, hpc, hst]
              simp only [Bool.false_eq_true, if_false]
              rw [← Nat.add_assoc]
              rfl
      · simp only [if_neg hcj]
        have hnj : isJump i.op = false := by simp [isJump, hja, hcj]
        by_cases hret : i.op = .ret
        · simp only [if_pos hret]
          cases hrv : Flat.retVal i σ with
          | none => simp
          | some y =>
            refine ⟨fun x h => ?_, by simp⟩
            simp at h
            subst h
            have hgr : (i.valueNum = 0 ∨ i.valueNum = 1) ∧
              (i.valueNum = 1 → ∀ k c ct b, i.v0 = .const k c ct b → (c.setWidth 32).signExtend 64 = c) := by
              simpa [Plain, hret] using hgi
            obtain ⟨ps, hps, hex⟩ := lower_ret (W := W) hret hgr.1 hgr.2 hrv hlow
            have hplace := place_line hts hu he (lowerI_nojump hnj hli)
            rw [hps, slotsOf_append] at hplace
            obtain ⟨m, hm⟩ := run_line (W := W) (slotsOf ps) σ _ _ hplace.left hex
            refine ⟨m + 1, ?_⟩
            rw [hpc, hm 1, run]
            have hdec : decode ⟨0x95, 0, 0, 0, 0⟩ = some .exit := by decide
            have hst := step_exit (W := W) (σ := σ.set 0 y) (hplace.right.head (L := [])) hdec
            rw [hst]
            simp
        · simp only [if_neg hret]
          cases hex : Flat.exec W i σ with
          | none => simp
          | some σ1 =>
            refine ⟨by simp, fun cur' rest' σ' h => ?_⟩
            simp only [Flat.Step.goto.injEq] at h
            obtain ⟨rfl, rfl, rfl⟩ := h
            have hs := exec_sound hgi hnj hret hex hlow
            have hplace := place_line hts hu he (lowerI_nojump hnj hli)
            obtain ⟨m, hm⟩ := run_line (W := W) _ σ _ _ hplace hs
            have hat' : At' bs ts cur rest (total (mc TA) + total (mcI tpre) + (slotsOf (mcI a)).length)
                (size B + rest.length) := by
              refine ⟨A, b, B, TA, u, TB, pre ++ [i], tpre ++ a, tr, hbs, hts, hid, by rw [hins]; simp,
                by rw [hu]; simp, hlr, hTB, ?_, ?_, rfl⟩
              · rw [slotsOf_length]
                have e : mcI (tpre ++ a) = mcI tpre ++ mcI a := by simp [mcI]
                rw [e, total_append, Nat.add_assoc]
              · intro q j hq
                have := List.append_inj' hq rfl
                simp at this
                rw [← this.2]
                exact ⟨by simpa using hcj, hja, hret⟩
            refine ⟨m, _, _, hat', ?_, Or.inr (by simp at hμ; omega)⟩
            rw [hpc]
            exact hm

theorem run_goto_mono {W : World} {code : List Slot} {m : Nat} : ∀ {pc : Int} {σ : St} {k : Nat}, (∃ q τ, run W code (m + k) pc σ = .goto q τ) →
    ∃ q τ, run W code m pc σ = .goto q τ := by
  induction m with
  | zero => intro pc σ k _; exact ⟨pc, σ, rfl⟩
  | succ m ih =>
    intro pc σ k h
    rw [show m + 1 + k = (m + k) + 1 by omega] at h
    simp only [run] at h ⊢
    cases hs : step W code pc σ <;> simp only [hs] at h ⊢
    · exact ih h
    · exact h
    · exact h

section
variable {W : World} {bs : List FBlock} {ts : List TBlock} {code : List Slot} {succ : Nat → Option Nat}
    (hlay : Laid bs succ) (hg : ∀ b ∈ bs, ∀ i ∈ b.insns, Plain i)
    (hl : lowerBlocks bs = .ok ts) (he : emitT ts = .ok code) (hlen : code.length ≤ 32768)
include hlay hg hl he hlen

theorem sim_done (n : Nat) : ∀ (cur : Nat) (rest : List FInsn) (pc μ : Nat) (σ : St) (x : BitVec 64) (τ : St),
      At' bs ts cur rest pc μ → Flat.runB W bs succ n cur rest σ = .done x τ →
      ∃ m, run W code m pc σ = .done x (τ.set 0 x) := by
  induction n with
  | zero => intro cur rest pc μ σ x τ _ h; simp [Flat.runB] at h
  | succ n ih =>
    intro cur rest pc μ σ x τ hat h
    obtain ⟨h1, h2⟩ := sim_step (W := W) (σ := σ) hlay hg hl he hlen hat
    simp only [Flat.runB] at h
    cases hs : Flat.stepB W bs succ cur rest σ with
    | goto c r s =>
      rw [hs] at h
      obtain ⟨k, pc', μ', h3, h4, -⟩ := h2 _ _ _ hs
      obtain ⟨m, hm⟩ := ih _ _ _ _ _ _ _ h3 h
      exact ⟨k + m, by rw [h4, hm]⟩
    | done y =>
      rw [hs] at h
      simp at h
      obtain ⟨rfl, rfl⟩ := h
      exact h1 _ hs
    | stuck => rw [hs] at h; simp at h

theorem sim_running (m : Nat) : ∀ (μ cur : Nat) (rest : List FInsn) (pc : Nat) (σ : St),
      At' bs ts cur rest pc μ → (∀ n, Flat.runB W bs succ n cur rest σ = .running) →
      ∃ q τ, run W code m pc σ = .goto q τ := by
  induction m using Nat.strongRecOn with
  | ind m ihm =>
    intro μ
    induction μ using Nat.strongRecOn with
    | ind μ ihμ =>
      intro cur rest pc σ hat h
      obtain ⟨h1, h2⟩ := sim_step (W := W) (σ := σ) hlay hg hl he hlen hat
      cases hs : Flat.stepB W bs succ cur rest σ with
      | goto c r s =>
        have h' : ∀ n, Flat.runB W bs succ n c r s = .running := by
          intro n
          have := h (n + 1)
          simpa [Flat.runB, hs] using this
        obtain ⟨k, pc', μ', h3, h4, h5⟩ := h2 _ _ _ hs
        rcases Nat.lt_or_ge m k with hk | hk
        · refine run_goto_mono (k := k - m) ⟨pc', s, ?_⟩
          have := h4 0
          rw [show m + (k - m) = k + 0 by omega, this]; rfl
        · rw [show m = k + (m - k) by omega, h4]
          rcases Nat.eq_zero_or_pos k with rfl | hkp
          · rcases h5 with h5 | h5
            · omega
            · simpa using ihμ μ' h5 _ _ _ _ h3 h'
          · exact ihm (m - k) (by omega) _ _ _ _ _ h3 h'
      | done y => have := h 1; simp [Flat.runB, hs] at this
      | stuck => have := h 1; simp [Flat.runB, hs] at this

end

end Verif.Emit
