import Verif.Lift.Zero
/-!
# C05, C17-C20, C50: lifting bytecode to SSA keeps its meaning

The machine is in Verif/Spec/Bpf.lean, the meaning of the IR in Verif/Spec/Ir.lean, the shape of programs
(`WellShaped`) in Verif/Spec/Cfg.lean.  `Agree`, `cutEv` and `Clean` are in Verif/Lift/Sem.lean.
-/
namespace Verif.Lift
open Verif Verif.Bpf Verif.IR Verif.GenBB
set_option linter.unusedSimpArgs false
set_option linter.unusedVariables false

/-! ## C17, C18: single instructions -/

/-- The lifter's choice `a` for a machine instruction that takes `σ` to `σ'`: a move makes the destination
register stand for the source operand, and the machine puts just that value there; a new IR instruction,
whose operands have the values of the registers and immediates listed, computes the value the machine puts
into the destination register `d` (if there is one), and does to memory what the machine does. -/
def Meets (W : Bpf.World) (σ σ' : Bpf.St) : Act → Prop
  | .mov d o => σ' = σ.set d (opdVal σ o)
  | .emit i a os d => ∀ (WI : IR.World) (x : Nat) (τ : IR.St) (av : Val) (vs : List Val),
      WI.bpf.ldimm = W.ldimm → τ.mem = σ.mem → (∀ r, a = some r → eval τ av = some (σ.reg r)) →
      evalAll τ vs = some (os.map (opdVal σ)) →
      match d with
      | some r => ∃ v, σ' = σ.set r v ∧ IR.exec WI x { i with addr := av, vals := vs } τ = some (τ.set x v)
      | none => (∀ r, σ'.reg r = σ.reg r) ∧ σ'.trace = σ.trace ∧
          IR.exec WI x { i with addr := av, vals := vs } τ = some { τ with mem := σ'.mem }

theorem evalAll_one {τ : IR.St} {vs : List Val} {x : BitVec 64} (h : evalAll τ vs = some [x]) : ∃ v, vs = [v] ∧ eval τ v = some x := by
  cases vs with
  | nil => simp [evalAll] at h
  | cons v vs =>
    cases vs with
    | nil =>
      simp only [evalAll, Option.bind_eq_bind, Option.bind_eq_some_iff] at h
      obtain ⟨y, h1, ys, h2, h3⟩ := h
      cases h2; cases h3
      exact ⟨v, rfl, h1⟩
    | cons w ws =>
      simp only [evalAll, Option.bind_eq_bind, Option.bind_eq_some_iff] at h
      obtain ⟨y, h1, ys, ⟨z, h2, zs, h3, h4⟩, h5⟩ := h
      cases h4; cases h5

theorem evalAll_two {τ : IR.St} {vs : List Val} {x y : BitVec 64} (h : evalAll τ vs = some [x, y]) :
    ∃ v w, vs = [v, w] ∧ eval τ v = some x ∧ eval τ w = some y := by
  cases vs with
  | nil => simp [evalAll] at h
  | cons v vs =>
    simp only [evalAll, Option.bind_eq_bind, Option.bind_eq_some_iff] at h
    obtain ⟨x', h1, ys, h2, h3⟩ := h
    cases h3
    obtain ⟨w, rfl, h4⟩ := evalAll_one h2
    exact ⟨v, w, rfl, h1, h4⟩

theorem evalAll_zero {τ : IR.St} {vs : List Val} (h : evalAll τ vs = some []) : vs = [] := by
  cases vs with
  | nil => rfl
  | cons v vs =>
    simp only [evalAll, Option.bind_eq_bind, Option.bind_eq_some_iff] at h
    obtain ⟨x', h1, ys, h2, h3⟩ := h
    cases h3

/-- Arithmetic, moves, byte swaps and 64-bit immediates. -/
def isAlu : Instr → Bool
  | .alu _ _ _ _ | .neg _ _ | .swap _ _ _ | .ldimm _ _ => true
  | _ => false

/-- C17.  Every arithmetic, move, byte swap or 64-bit immediate instruction is accepted, and what the lifter
makes of it has the value that the machine puts into the destination register - for all register contents,
immediates and widths.  Excluded are 32-bit moves from a register and 32-bit moves of a negative immediate
(see `C17_violated_mov32`, `C17_violated_mov32_imm`) and load kinds above 6 (rejected). -/
theorem C17_alu_partial (W : Bpf.World) (C : List Blk) (defd : Nat → Bool) (q : PreInsn) (i : Instr) (σ σ' : Bpf.St)
    (hd : decode q.slot = some i) (ha : isAlu i = true)
    (hm : ∀ d src, i = .alu false .mov d src → ∃ c : BitVec 32, src = .imm c ∧ c.msb = false)
    (hk : ∀ d k, i = .ldimm d k → k.toNat ≤ 6)
    (he : effect W q i σ = some σ') : ∃ a, plan C defd q = .ok a ∧ Meets W σ σ' a := by
  rw [plan_decode C defd q hd]
  cases i with
  | alu w op d src =>
    simp only [planI]
    cases he
    by_cases hop : op = .mov
    · subst hop
      rw [if_pos rfl]
      refine ⟨_, rfl, ?_⟩
      simp only [Meets, opdVal_opd]
      congr 1
      rw [alu_mov]
      cases w with
      | true => rfl
      | false =>
        obtain ⟨c, rfl, hc⟩ := hm d src rfl
        simp only [Src.val, zext_sext hc]
        ext k hk
        simp
    · rw [if_neg hop]
      refine ⟨_, rfl, ?_⟩
      intro WI x τ av vs h0 h1 h2 h3
      obtain ⟨v, w', rfl, h4, h5⟩ := evalAll_two h3
      rw [opdVal_opd] at h5
      exact ⟨_, rfl, exec_alu hop rfl rfl rfl h4 h5⟩
  | neg w d =>
    cases he
    refine ⟨_, rfl, ?_⟩
    intro WI x τ av vs h0 h1 h2 h3
    obtain ⟨v, rfl, h4⟩ := evalAll_one h3
    exact ⟨_, rfl, by simp [IR.exec, h4, width_ty, opdVal]⟩
  | swap be d wd =>
    simp only [effect, execInstr, Option.map_eq_some_iff] at he
    obtain ⟨z, hz, rfl⟩ := he
    refine ⟨_, rfl, ?_⟩
    intro WI x τ av vs h0 h1 h2 h3
    obtain ⟨v, rfl, h4⟩ := evalAll_one h3
    refine ⟨_, rfl, ?_⟩
    cases be <;> simp [IR.exec, h4, opdVal, hz]
  | ldimm d k =>
    cases he
    simp only [planI]
    rw [if_pos (hk d k rfl)]
    refine ⟨_, rfl, ?_⟩
    intro WI x τ av vs h0 h1 h2 h3
    refine ⟨_, rfl, ?_⟩
    have : k.toNat = 0 ↔ k = 0 := by
      constructor
      · intro e; exact BitVec.eq_of_toNat_eq (by rw [e]; rfl)
      · intro e; rw [e]; rfl
    simp [IR.exec, h0, this]
  | _ => simp [isAlu] at ha

/-- C18.  Every load and store is accepted, and the IR access made from it reads or writes the same address
with the same width, zero-extending loads.  Excluded: sign-extending loads (see `C18_violated_memsx`). -/
theorem C18_memory_partial (W : Bpf.World) (C : List Blk) (defd : Nat → Bool) (q : PreInsn) (i : Instr) (σ σ' : Bpf.St)
    (hd : decode q.slot = some i)
    (ha : (∃ sz d s off, i = .ldx false sz d s off) ∨ (∃ sz d off imm, i = .st sz d off imm) ∨ (∃ sz d s off, i = .stx sz d s off))
    (he : execInstr W i σ = some σ') : ∃ a, plan C defd q = .ok a ∧ Meets W σ σ' a := by
  rw [plan_decode C defd q hd]
  rcases ha with ⟨sz, d, s, off, rfl⟩ | ⟨sz, d, off, imm, rfl⟩ | ⟨sz, d, s, off, rfl⟩
  · cases he
    refine ⟨_, rfl, ?_⟩
    intro WI x τ av vs h0 h1 h2 h3
    exact ⟨_, rfl, by simp [IR.exec, h2 s.toNat rfl, bytes_szTy, h1]⟩
  · cases he
    refine ⟨_, rfl, ?_⟩
    intro WI x τ av vs h0 h1 h2 h3
    obtain ⟨v, rfl, h4⟩ := evalAll_one h3
    exact ⟨fun _ => rfl, rfl, by simp [IR.exec, h2 d.toNat rfl, bytes_szTy, h1, h4, opdVal]⟩
  · cases he
    refine ⟨_, rfl, ?_⟩
    intro WI x τ av vs h0 h1 h2 h3
    obtain ⟨v, rfl, h4⟩ := evalAll_one h3
    exact ⟨fun _ => rfl, rfl, by simp [IR.exec, h2 d.toNat rfl, bytes_szTy, h1, h4, opdVal]⟩

/-! ## C05: the wide load -/

open Verif.Norm Verif.Emit in
/-- C05.  A 64-bit immediate load of any kind, emitted as two slots anywhere in a program, is read back and
lifted to a load of the same 64-bit value, of the same kind, into the same register. -/
theorem C05_loadimm (d : Norm.Reg) (k : Nat) (v : BitVec 64) (hk : k ≤ 6) (A B : List Slot) (C : List Blk) (defd : Nat → Bool) :
    ∃ q, readInsns (A ++ slotsOf [ldimmP d k v] ++ B) (A.length + 2) 2 A.length = [q] ∧
      plan C defd q = .ok (.emit { op := .loadimm, immKind := k, imm64 := v } none [] (some d.val)) := by
  have h := C05_readback [ldimmP d k v] (by simp [ldimmP]) A B 2 (by simp [total, width, ldimmP])
  have hw : total [ldimmP d k v] = 2 := by simp [total, width, ldimmP]
  rw [hw] at h
  generalize readInsns _ _ _ _ = qs at h
  cases qs with
  | nil => simp at h
  | cons q qs =>
    cases qs with
    | cons q2 qs => simp at h
    | nil =>
      refine ⟨q, rfl, ?_⟩
      simp only [List.map_cons, List.map_nil, readView, preView, ldimmP, List.cons.injEq, Prod.mk.injEq, and_true] at h
      obtain ⟨h1, h2, h3, h4, h5, h6⟩ := h
      have h5 : q.wide = true := by rw [h5]; rfl
      rw [h5] at h6
      simp only [if_true] at h6
      have hdk : decode q.slot = some (.ldimm q.slot.dst q.slot.src) := by
        unfold decode
        rw [h1]
        rfl
      rw [plan_decode C defd q hdk]
      have hs : q.slot.src.toNat = k := by rw [h3]; simp; omega
      have hdd : q.slot.dst.toNat = d.val := by rw [h2]; simp; omega
      simp only [planI, hs, hdd, h6]
      rw [if_pos hk]

/-! ## C20: whole programs -/

/-- The arguments r1..r5, the stack pointer, memory and history are the same at the start. -/
structure Start (σ : Bpf.St) (τ : IR.St) : Prop where
  sp : τ.env 0 = σ.reg 10
  args : ∀ r, 1 ≤ r → r ≤ 5 → τ.env r = σ.reg r
  mem : τ.mem = σ.mem
  trace : τ.trace = σ.trace.map cutEv

theorem Fin.noPhi0 {C g s} (h : Fin C g s) : g.phis 0 = [] := by
  cases hp : g.phis 0 with
  | nil => rfl
  | cons x xs =>
    exfalso
    have hx : x ∈ g.phis 0 := by rw [hp]; simp
    have hm : x ∈ s.body 0 := by rw [h.gi.inv.body]; simp [hx]
    have hrng := h.gi.inv.rng 0 x hm
    cases h.gi.inv.just 0 _ _ (h.gi.inv.phiR 0 x hx).1 with
    | sp h1 h2 => simp only [Val.insn.injEq] at h2; omega
    | arg h1 h2 h3 h4 => simp only [Val.insn.injEq] at h4; omega
    | copy p h1 h2 h3 h4 h5 => exact h1 rfl
    | phi y h1 h2 h3 h4 h5 h0 h6 h7 => exact h1 rfl

theorem start_point {P : List Slot} {C : List Blk} {g : Gh} {s : LSt} (hG : Graph P C) (hF : Fin C g s) (h0 : P ≠ []) {σ : Bpf.St}
    {τ : IR.St} (hs : Start σ τ) : ∃ k, Point P C s 0 σ 0 (s.body 0) τ k k.insns (g.start 0) := by
  obtain ⟨b, k, hk, hks⟩ := (hG.start 0).2 (.inl rfl)
  have hb : b = 0 := by
    have hb0 : 0 < C.length := by have := lt_of_get hk; omega
    have hk0 : C[0]? = some C[0] := List.getElem?_eq_getElem hb0
    exact hG.inj b 0 k _ hk hk0 (by rw [hks, hG.zero _ hk0])
  subst hb
  have hr : Reach C 0 := ⟨0, .zero⟩
  refine ⟨k, hk, hr, by have := hG.chain 0 k hk; rw [hks] at this; exact this, by omega, ?_, ?_, ?_⟩
  · have := hF.pt hr
    rw [insns_get hk] at this
    rw [hF.gi.inv.body, hF.noPhi0]
    exact this
  · refine ⟨?_, hs.mem, hs.trace⟩
    intro r v hv
    cases hF.gi.inv.just 0 r v hv with
    | sp h1 h2 => subst h1; subst h2; simp [eval, hs.sp]
    | arg h1 h2 h3 h4 => subst h4; simp [eval, hs.args r h2 h3]
    | copy p h1 h2 h3 h4 h5 => exact absurd rfl h1
    | phi y h1 h2 h3 h4 h5 h0 h6 h7 => exact absurd rfl h1
  · intro h3 h4
    have h5 := hG.chain 0 k hk
    rw [h3] at h5
    have h6 := (hG.stop 0 k hk).2.2 (by omega)
    have := h5.nil_eq
    omega

/-- The values an instruction works on: the base address if it accesses memory, and its operands. -/
def operands (σ : Bpf.St) : Instr → Option (BitVec 64) × List (BitVec 64)
  | .alu _ _ d src => (none, [σ.reg d.toNat, src.val σ])
  | .neg _ d | .swap _ d _ => (none, [σ.reg d.toNat])
  | .ldimm _ _ | .ja _ => (none, [])
  | .ldx _ _ _ s _ => (some (σ.reg s.toNat), [])
  | .st _ d _ imm => (some (σ.reg d.toNat), [imm.signExtend 64])
  | .stx _ d s _ => (some (σ.reg d.toNat), [σ.reg s.toNat])
  | .jcc _ _ d src _ => (none, [σ.reg d.toNat, src.val σ])
  | .call fid => (none, σ.args.take (arity fid))
  | .exit => (none, [σ.reg 0])

def isMov : Instr → Bool
  | .alu _ .mov _ _ => true
  | _ => false

/-- The IR instruction `x` is about to work on the values `o`. -/
def WorksOn (f : Fn) (x : Nat) (τ : IR.St) (o : Option (BitVec 64) × List (BitVec 64)) : Prop :=
  (∀ a, o.1 = some a → eval τ (f.insn x).addr = some a) ∧ evalAll τ (f.insn x).vals = some o.2

/-- The IR operation for a machine instruction (moves have none). -/
def opOf : Instr → Option Op
  | .alu _ op _ _ => if op = .mov then none else some (irAlu op)
  | .neg _ _ => some .neg
  | .swap be _ _ => some (if be then .htobe else .htole)
  | .ldimm _ _ => some .loadimm
  | .ldx _ _ _ _ _ => some .loadraw
  | .st _ _ _ _ | .stx _ _ _ _ => some .storeraw
  | .ja _ => some .ja
  | .jcc _ c _ _ _ => irCond c
  | .call _ => some .call
  | .exit => some .ret

theorem planI_opOf {C : List Blk} {defd : Nat → Bool} {q : PreInsn} {i : Instr} {j : Insn} {a : Option Nat} {os : List Opd} {d : Option Nat}
    (hp : planI C defd q i = .ok (.emit j a os d)) (hcl : Clean i) (hsrc : ∀ f, i = .call f → q.slot.src = 0 ∧ f = q.slot.imm) :
    opOf i = some j.op := by
  cases i with
  | alu w op dd src =>
    simp only [planI] at hp
    split at hp
    · cases hp
    · rename_i h; cases hp; simp only [opOf, if_neg h]
  | ldimm dd k => simp only [planI] at hp; split at hp <;> cases hp; rfl
  | ja off =>
    simp only [planI] at hp
    obtain ⟨t, _, hp⟩ := Out.bind_eq_ok.1 hp
    cases hp; rfl
  | jcc w c dd src off =>
    simp only [planI] at hp
    split at hp
    · cases hp
    · rename_i o ho
      obtain ⟨t, _, hp⟩ := Out.bind_eq_ok.1 hp
      obtain ⟨t2, _, hp⟩ := Out.bind_eq_ok.1 hp
      cases hp; exact ho
  | call fid =>
    simp only [planI] at hp
    obtain ⟨h0, rfl⟩ := hsrc fid rfl
    obtain ⟨h1, h2⟩ := planCall_ok hp h0 hcl
    cases h1
    rfl
  | _ => simp only [planI] at hp; cases hp; rfl

theorem planI_operands {C : List Blk} {defd : Nat → Bool} {q : PreInsn} {i : Instr} {j : Insn} {a : Option Nat} {os : List Opd} {d : Option Nat}
    (hp : planI C defd q i = .ok (.emit j a os d)) (hcl : Clean i) (hsrc : ∀ f, i = .call f → q.slot.src = 0 ∧ f = q.slot.imm) (σ : Bpf.St) :
    operands σ i = (a.map σ.reg, os.map (opdVal σ)) := by
  cases i with
  | alu w op dd src =>
    simp only [planI] at hp
    split at hp
    · cases hp
    · cases hp; simp only [operands, List.map_cons, List.map_nil, opdVal_opd, Option.map_none]; rfl
  | neg w dd => simp only [planI] at hp; cases hp; rfl
  | swap be dd wd => simp only [planI] at hp; cases hp; rfl
  | ldimm dd k => simp only [planI] at hp; split at hp <;> cases hp; rfl
  | ldx sx sz dd s off => simp only [planI] at hp; cases hp; rfl
  | st sz dd off imm => simp only [planI] at hp; cases hp; rfl
  | stx sz dd s off => simp only [planI] at hp; cases hp; rfl
  | ja off =>
    simp only [planI] at hp
    obtain ⟨t, _, hp⟩ := Out.bind_eq_ok.1 hp
    cases hp; rfl
  | jcc w c dd src off =>
    simp only [planI] at hp
    split at hp
    · cases hp
    · obtain ⟨t, _, hp⟩ := Out.bind_eq_ok.1 hp
      obtain ⟨t2, _, hp⟩ := Out.bind_eq_ok.1 hp
      cases hp; simp only [operands, List.map_cons, List.map_nil, opdVal_opd, Option.map_none]; rfl
  | call fid =>
    simp only [planI] at hp
    obtain ⟨h0, rfl⟩ := hsrc fid rfl
    obtain ⟨h1, h2⟩ := planCall_ok hp h0 hcl
    cases h1
    simp only [operands, args_take σ _ h2, Option.map_none]
  | exit => simp only [planI] at hp; cases hp; rfl

theorem point_works {P : List Slot} {C : List Blk} {g : Gh} {s : LSt} (hcl : ∀ sl ∈ P, ∀ i, decode sl = some i → Clean i) {pc : Nat} {σ : Bpf.St}
    {b : Nat} {rest : List Nat} {τ : IR.St} {k : Blk} {q : PreInsn} {qs : List PreInsn} {m : M} (h : Point P C s pc σ b rest τ k (q :: qs) m)
    {sl : Slot} {i : Instr} (hs : P[pc]? = some sl) (hd : decode sl = some i) (hm : isMov i = false) :
    ∃ x rest', rest = x :: rest' ∧ WorksOn (toFn C s) x τ (operands σ i) ∧ opOf i = some ((toFn C s).insn x).op := by
  obtain ⟨defd, a, xs, ys, m1, hpl, ht, rfl, hpt, hfr⟩ := h.pt.tail
  have hq : q.slot = sl := by
    cases h.chain with
    | one h1 h2 => rw [hs] at h2; cases h2; rfl
    | wide h1 h2 => rw [hs] at h2; cases h2; rfl
  have hd' : decode q.slot = some i := by rw [hq]; exact hd
  have hci := hcl sl (List.mem_of_getElem? hs) i hd
  rw [plan_decode C defd q hd'] at hpl
  cases ht with
  | mov h1 h2 =>
    exfalso
    cases i with
    | alu w op d src =>
      simp only [planI] at hpl
      split at hpl
      · rename_i e; subst e; simp [isMov] at hm
      · cases hpl
    | ldimm d k => simp only [planI] at hpl; split at hpl <;> cases hpl
    | ja off => simp only [planI] at hpl; obtain ⟨t, _, hpl⟩ := Out.bind_eq_ok.1 hpl; cases hpl
    | jcc w c d src off =>
      simp only [planI] at hpl
      split at hpl
      · cases hpl
      · obtain ⟨t, _, hpl⟩ := Out.bind_eq_ok.1 hpl
        obtain ⟨t2, _, hpl⟩ := Out.bind_eq_ok.1 hpl
        cases hpl
    | call fid =>
      simp only [planI] at hpl
      have := decode_call hd'
      obtain ⟨h3, _⟩ := planCall_ok hpl this.1 (by rw [← this.2]; exact hci)
      cases h3
    | _ => simp only [planI] at hpl; cases hpl
  | @emit j a os d _ av vs x h1 h2 h3 h4 =>
    have e : (toFn C s).insn x = s.insn x := rfl
    refine ⟨x, ys, rfl, ?_, by rw [e, h3]; exact (planI_opOf hpl hci fun f e => by subst e; exact decode_call hd' :)⟩
    rw [planI_operands hpl hci (fun f e => by subst e; exact decode_call hd') σ]
    refine ⟨?_, ?_⟩
    · intro w hw
      rw [e, h3]
      cases a with
      | none => cases hw
      | some r => cases hw; exact h.rel.reg r av h1
    · rw [e, h3]
      exact h.rel.opds h2

/-- Everything about the lifted function at once; `lift` ran to its end. -/
theorem lift_sim {P : List Slot} (hw : WellShaped P) (hlen : P.length ≤ 32768) (hcl : ∀ sl ∈ P, ∀ i, decode sl = some i → Clean i)
    {n : Nat} {f : Fn} (hf : lift n P = .ok f) (hne : P ≠ []) {W : Bpf.World} {WI : IR.World} (hW : Agree W WI) {σ : Bpf.St} {τ : IR.St}
    (hs : Start σ τ) (j : Nat) :
    (∀ pc σ', Bpf.run W P j 0 σ = .goto pc σ' → ∃ (m b : Nat) (rest : List Nat) (τ' : IR.St),
      runFn WI f m τ = .running b rest τ' ∧ τ'.mem = σ'.mem ∧ τ'.trace = σ'.trace.map cutEv ∧
      ∀ (p : Nat) (sl : Slot) (i : Instr), pc = (p : Int) → P[p]? = some sl → decode sl = some i → isMov i = false →
        ((∃ w c d src, i = .jcc w c d src 0) ∨ ∃ x rest', rest = x :: rest' ∧ WorksOn f x τ' (operands σ' i) ∧ opOf i = some (f.insn x).op)) ∧
    (∀ x σ', Bpf.run W P j 0 σ = .done x σ' → ∃ (m : Nat) (τ' : IR.St), runFn WI f m τ = .done x τ' ∧
      τ'.mem = σ'.mem ∧ τ'.trace = σ'.trace.map cutEv) := by
  have hw' := wellShaped_zero hw
  obtain ⟨C, h1, hG⟩ := graph_of hw' (map_idem P) (by simpa using hlen)
  rw [genBB_idem] at h1
  unfold lift at hf
  obtain ⟨C', h0, hf⟩ := Out.bind_eq_ok.1 hf
  rw [h1] at h0; cases h0
  obtain ⟨s, h2, h3⟩ := Out.bind_eq_ok.1 hf
  cases h3
  obtain ⟨g, hF⟩ := hG.fin h2
  have hcl' := clean_zero hw.legal hcl
  obtain ⟨k, hp⟩ := start_point hG hF (by simpa using hne) hs
  obtain ⟨r1, r2⟩ := sim_run hW hG hF hcl' j hp
  have hrun : Bpf.run W (P.map zeroJump) j ((0 : Nat) : Int) σ = Bpf.run W P j 0 σ := C49_zero_jumps P hw.legal W j 0 σ
  rw [hrun] at r1 r2
  refine ⟨?_, r2⟩
  intro pc σ' he
  obtain ⟨q, m, b, rest, τ', rfl, e2, _, k', qs, mm, e3⟩ := r1 pc σ' he
  -- if the block is finished, move on to the next one
  by_cases hq : q < (P.map zeroJump).length
  · obtain ⟨m2, b2, rest2, τ2, k2, q2, qs2, mm2, e4, e5⟩ : ∃ (m2 b2 : Nat) (rest2 : List Nat) (τ2 : IR.St) (k2 : Blk) (q2 : PreInsn)
        (qs2 : List PreInsn) (mm2 : M), IR.run WI (toFn C s) m2 b rest τ' = .running b2 rest2 τ2 ∧
        Point (P.map zeroJump) C s q σ' b2 rest2 τ2 k2 (q2 :: qs2) mm2 := by
      cases qs with
      | cons q2 qs2 => exact ⟨0, b, rest, τ', k', q2, qs2, mm, rfl, e3⟩
      | nil =>
        obtain ⟨t, τ2, k2, q2, qs2, e4, e5⟩ := Point.settle (WI := WI) hG hF e3 hq
        exact ⟨1, t, g.code t, τ2, k2, q2, qs2, _, e4, e5⟩
    refine ⟨m + m2, b2, rest2, τ2, ?_, e5.rel.mem, e5.rel.trace, ?_⟩
    · have := run_add WI (toFn C s) m m2 0 (s.body 0) τ
      rw [e2] at this
      exact this.trans e4
    · intro p sl i hpp hsl hd hm
      have : p = q := by omega
      subst this
      rcases decode_zeroJump hw.legal hsl with e | ⟨e, w, c, d, src, e'⟩
      · exact .inr (point_works (g := g) hcl' e5 (get_zero hsl) (by rw [e]; exact hd) hm)
      · rw [hd] at e'; cases e'; exact .inl ⟨w, c, d, src, rfl⟩
  · refine ⟨m, b, rest, τ', e2, e3.rel.mem, e3.rel.trace, ?_⟩
    intro p sl i hpp hsl
    have := lt_of_get hsl
    simp at hq
    omega

theorem bpf_run_succ {W : Bpf.World} {P : List Slot} : ∀ (n : Nat) {pc pc1 : Int} {σ σ1 : Bpf.St}, Bpf.run W P n pc σ = .goto pc1 σ1 → Bpf.run W P (n + 1) pc σ = Bpf.step W P pc1 σ1
  | 0, pc, pc1, σ, σ1, h => by
    cases h
    simp only [Bpf.run]
    cases Bpf.step W P pc σ <;> rfl
  | n + 1, pc, pc1, σ, σ1, h => by
    rw [Bpf.run] at h ⊢
    cases hs : Bpf.step W P pc σ with
    | goto pc2 σ2 => rw [hs] at h; exact bpf_run_succ n h
    | done x σ2 => rw [hs] at h; cases h
    | stuck => rw [hs] at h; cases h

/-- What is still running was running before. -/
theorem running_le {W : IR.World} {f : Fn} {n m : Nat} {τ : IR.St} (hle : n ≤ m) {b r τ'} (h : runFn W f m τ = .running b r τ') : ∃ b r τ', runFn W f n τ = .running b r τ' := by
  obtain ⟨d, rfl⟩ := Nat.exists_eq_add_of_le hle
  unfold runFn at h ⊢
  rw [run_add] at h
  cases hr : IR.run W f n f.entry (f.body f.entry) τ with
  | running b r τ1 => exact ⟨b, r, τ1, rfl⟩
  | done x τ1 => rw [hr] at h; cases h
  | thrown τ1 => rw [hr] at h; cases h
  | stuck => rw [hr] at h; cases h

/-- If the program runs for ever, so does the lifted function. -/
theorem lift_forever {P : List Slot} (hw : WellShaped P) (hlen : P.length ≤ 32768) (hcl : ∀ sl ∈ P, ∀ i, decode sl = some i → Clean i)
    {n : Nat} {f : Fn} (hf : lift n P = .ok f) (hne : P ≠ []) {W : Bpf.World} {WI : IR.World} (hW : Agree W WI) {σ : Bpf.St} {τ : IR.St}
    (hs : Start σ τ) (hrun : ∀ j, ∃ pc σ', Bpf.run W P j 0 σ = .goto pc σ') (m : Nat) : ∃ b r τ', runFn WI f m τ = .running b r τ' := by
  have hw' := wellShaped_zero hw
  obtain ⟨C, h1, hG⟩ := graph_of hw' (map_idem P) (by simpa using hlen)
  rw [genBB_idem] at h1
  unfold lift at hf
  obtain ⟨C', h0, hf⟩ := Out.bind_eq_ok.1 hf
  rw [h1] at h0; cases h0
  obtain ⟨s, h2, h3⟩ := Out.bind_eq_ok.1 hf
  cases h3
  obtain ⟨g, hF⟩ := hG.fin h2
  have hcl' := clean_zero hw.legal hcl
  obtain ⟨k, hp⟩ := start_point hG hF (by simpa using hne) hs
  have hz : ∀ j, Bpf.run W (P.map zeroJump) j ((0 : Nat) : Int) σ = Bpf.run W P j 0 σ := fun j => C49_zero_jumps P hw.legal W j 0 σ
  generalize hL : (P.map zeroJump).length = L at *
  obtain ⟨pc, σ', e⟩ := hrun (m * (L + 1) + L)
  obtain ⟨pc2, σ2, e2⟩ := hrun (m * (L + 1) + L + 1)
  rw [← hz] at e e2
  obtain ⟨r1, _⟩ := sim_run hW hG hF hcl' (m * (L + 1) + L) hp
  obtain ⟨q, j, b, rest, τ', rfl, e3, e4, _⟩ := r1 pc σ' e
  rw [bpf_run_succ _ e] at e2
  have hq := step_lt e2
  rw [hL] at hq e4
  have hj : m ≤ j := by
    refine Nat.le_of_not_lt fun hlt => ?_
    have := Nat.mul_le_mul_right (L + 1) (show j + 1 ≤ m from hlt)
    rw [Nat.add_mul] at this
    omega
  exact running_le hj (f := toFn C s) e3

/-- C20.  For every well-shaped program of at most 32768 slots whose instructions are all lifted faithfully
(`Clean`) and that the lifter accepts: whatever slot the machine reaches after any number of steps along
any path, through joins and loops, the IR reaches a point with the same memory and helper history, and if
the slot holds an instruction other than a move (or a conditional jump with offset 0, which is removed), the next IR
instruction is the operation of that instruction and works on exactly the values that the registers read by it hold at that moment. -/
theorem C20_reaching_partial {P : List Slot} (hw : WellShaped P) (hlen : P.length ≤ 32768) (hne : P ≠ [])
    (hcl : ∀ sl ∈ P, ∀ i, decode sl = some i → Clean i) {n : Nat} {f : Fn} (hf : lift n P = .ok f)
    {W : Bpf.World} {WI : IR.World} (hW : Agree W WI) {σ : Bpf.St} {τ : IR.St} (hs : Start σ τ)
    (j p : Nat) (σ' : Bpf.St) (hr : Bpf.run W P j 0 σ = .goto p σ') :
    ∃ (m b : Nat) (rest : List Nat) (τ' : IR.St), runFn WI f m τ = .running b rest τ' ∧
      τ'.mem = σ'.mem ∧ τ'.trace = σ'.trace.map cutEv ∧
      ∀ (sl : Slot) (i : Instr), P[p]? = some sl → decode sl = some i → isMov i = false → (∀ w c d src, i ≠ .jcc w c d src 0) →
        ∃ x rest', rest = x :: rest' ∧ WorksOn f x τ' (operands σ' i) ∧ opOf i = some (f.insn x).op := by
  obtain ⟨m, b, rest, τ', h1, h2, h3, h4⟩ := (lift_sim hw hlen hcl hf hne hW hs j).1 p σ' hr
  refine ⟨m, b, rest, τ', h1, h2, h3, ?_⟩
  intro sl i hsl hd hm hj
  rcases h4 p sl i rfl hsl hd hm with ⟨w, c, d, src, e⟩ | h
  · exact absurd e (hj w c d src)
  · exact h

/-- C20, the result: if the machine exits with r0 = `x`, so does the lifted function, with the same memory
and the same helper calls. -/
theorem C20_result_partial {P : List Slot} (hw : WellShaped P) (hlen : P.length ≤ 32768) (hne : P ≠ [])
    (hcl : ∀ sl ∈ P, ∀ i, decode sl = some i → Clean i) {n : Nat} {f : Fn} (hf : lift n P = .ok f)
    {W : Bpf.World} {WI : IR.World} (hW : Agree W WI) {σ : Bpf.St} {τ : IR.St} (hs : Start σ τ)
    (j : Nat) (x : BitVec 64) (σ' : Bpf.St) (hr : Bpf.run W P j 0 σ = .done x σ') :
    ∃ (m : Nat) (τ' : IR.St), runFn WI f m τ = .done x τ' ∧ τ'.mem = σ'.mem ∧ τ'.trace = σ'.trace.map cutEv :=
  (lift_sim hw hlen hcl hf hne hW hs j).2 x σ' hr

/-- C50.  Under the same conditions the lifted function calls the same helpers in the same order, each with
the values of r1, r2, ... at the call, as many as the helper takes (`arity`), at every moment and at the
end.  Not covered: `trace_printk` (see `C50_violated_printk`). -/
theorem C50_calls_partial {P : List Slot} (hw : WellShaped P) (hlen : P.length ≤ 32768) (hne : P ≠ [])
    (hcl : ∀ sl ∈ P, ∀ i, decode sl = some i → Clean i) {n : Nat} {f : Fn} (hf : lift n P = .ok f)
    {W : Bpf.World} {WI : IR.World} (hW : Agree W WI) {σ : Bpf.St} {τ : IR.St} (hs : Start σ τ) (j : Nat) :
    (∀ (p : Nat) (σ' : Bpf.St), Bpf.run W P j 0 σ = .goto p σ' → ∃ (m b : Nat) (rest : List Nat) (τ' : IR.St),
      runFn WI f m τ = .running b rest τ' ∧ τ'.trace = σ'.trace.map (fun e => ⟨e.fid, e.args.take (arity e.fid)⟩)) ∧
    (∀ x σ', Bpf.run W P j 0 σ = .done x σ' → ∃ (m : Nat) (τ' : IR.St), runFn WI f m τ = .done x τ' ∧
      τ'.trace = σ'.trace.map (fun e => ⟨e.fid, e.args.take (arity e.fid)⟩)) := by
  obtain ⟨h1, h2⟩ := lift_sim hw hlen hcl hf hne hW hs j
  refine ⟨?_, ?_⟩
  · intro p σ' hr
    obtain ⟨m, b, rest, τ', h3, _, h4, _⟩ := h1 p σ' hr
    exact ⟨m, b, rest, τ', h3, h4⟩
  · intro x σ' hr
    obtain ⟨m, τ', h3, _, h4⟩ := h2 x σ' hr
    exact ⟨m, τ', h3, h4⟩

/-! ## C19: nothing is dropped -/

/-- Which IR instruction stands for a bytecode instruction: `none` if it is not supported, `some none` for
moves, which need none. -/
def irFor (s : Slot) : Option (Option Op) :=
  let c := s.code.toNat
  let op := c / 16
  match c % 8 with
  | 0 => if c = 0x18 ∧ s.src.toNat ≤ 6 then some (some .loadimm) else none
  | 1 => if c / 32 = 3 ∨ c / 32 = 4 then some (some .loadraw) else none
  | 2 | 3 => if c / 32 = 3 then some (some .storeraw) else none
  | 5 | 6 =>
    match op with
    | 0 => some (some .ja)
    | 1 => some (some .jeq)
    | 2 => some (some .jgt)
    | 3 => some (some .jge)
    | 5 => some (some .jne)
    | 6 => some (some .jsgt)
    | 7 => some (some .jsge)
    | 8 => if s.src = 6 then some (some .ecall) else some (some .call)
    | 9 => some (some .ret)
    | 0xa => some (some .jlt)
    | 0xb => some (some .jle)
    | 0xc => some (some .jslt)
    | 0xd => some (some .jsle)
    | _ => none
  | k =>
    match op with
    | 0 => some (some .add)
    | 1 => some (some .sub)
    | 2 => some (some .mul)
    | 3 => some (some .div)
    | 4 => some (some .or)
    | 5 => some (some .and)
    | 6 => some (some .lsh)
    | 7 => some (some .rsh)
    | 8 => some (some .neg)
    | 9 => some (some .mod)
    | 0xa => some (some .xor)
    | 0xb => some none
    | 0xc => some (some .arsh)
    | 0xd => if k = 4 then some (some (if c / 8 % 2 = 1 then .htobe else .htole)) else none
    | _ => none

def Act.op : Act → Option Op
  | .mov _ _ => none
  | .emit i _ _ _ => some i.op

theorem planCall_irFor {defd : Nat → Bool} {s : Slot} {a : Act} (h : planCall defd s = .ok a) :
    a.op = if s.src = 6 then some .ecall else some .call := by
  unfold planCall at h
  split at h
  · cases h
  split at h
  · cases h
  split at h
  · rename_i h6
    rw [if_pos h6]
    repeat' split at h
    all_goals first | (cases h; rfl) | cases h
  · rename_i h6
    rw [if_neg h6]
    repeat' split at h
    all_goals first | (cases h; rfl) | cases h

theorem plan_irFor {C : List Blk} {defd : Nat → Bool} {q : PreInsn} {a : Act} (h : plan C defd q = .ok a) : irFor q.slot = some a.op := by
  have hcls : q.slot.code.toNat % 8 = 0 ∨ q.slot.code.toNat % 8 = 1 ∨ q.slot.code.toNat % 8 = 2 ∨ q.slot.code.toNat % 8 = 3 ∨
    q.slot.code.toNat % 8 = 4 ∨ q.slot.code.toNat % 8 = 5 ∨ q.slot.code.toNat % 8 = 6 ∨ q.slot.code.toNat % 8 = 7 := by omega
  unfold plan at h
  unfold irFor
  dsimp only at h ⊢
  rcases hcls with hc | hc | hc | hc | hc | hc | hc | hc
  · simp only [hc] at h ⊢
    simp only [show ¬ ((0 : Nat) = 4 ∨ (0 : Nat) = 7) by omega, if_false] at h
    split at h
    · rename_i h1
      split at h
      · rename_i h2
        cases h; simp [h1, h2, Act.op]
      · cases h
    · simp at h
  · simp only [hc] at h ⊢
    have : q.slot.code.toNat ≠ 0x18 := by omega
    simp [this] at h
    split at h
    · rename_i h1; cases h; simp [h1, Act.op]
    · split at h
      · rename_i h1; cases h; simp [h1, Act.op]
      · cases h
  · simp only [hc] at h ⊢
    have : q.slot.code.toNat ≠ 0x18 := by omega
    simp [this] at h
    split at h
    · rename_i h1; cases h; simp [h1, Act.op]
    · cases h
  · simp only [hc] at h ⊢
    have : q.slot.code.toNat ≠ 0x18 := by omega
    simp [this] at h
    split at h
    · rename_i h1; cases h; simp [h1, Act.op]
    · cases h
  · rw [if_pos (.inl hc)] at h
    simp only [hc] at h ⊢
    rcases op_cases q.slot.code with ho | ho | ho | ho | ho | ho | ho | ho | ho | ho | ho | ho | ho | ho | ho | ho <;>
      rw [ho] at h ⊢ <;> simp [aluIr] at h <;>
      first
        | (subst h; rfl)
        | (obtain ⟨_, rfl⟩ := h; rfl)
        | (split at h <;> first | (cases h; done) | (rename_i hx; cases h; simp [hx, Act.op]; done) | (rename_i hx; simp at h; subst h; simp [hx, Act.op]; done))
  · rw [if_neg (by omega), if_neg (by omega), if_neg (by omega), if_neg (by omega), if_neg (by omega), if_neg (by omega),
      if_pos (.inl hc)] at h
    simp only [hc] at h ⊢
    rcases op_cases q.slot.code with ho | ho | ho | ho | ho | ho | ho | ho | ho | ho | ho | ho | ho | ho | ho | ho <;>
      rw [ho] at h ⊢ <;> simp [condIr] at h <;>
      first
        | (subst h; rfl)
        | (obtain ⟨t, _, h⟩ := Out.bind_eq_ok.1 h; cases h; rfl)
        | (obtain ⟨t, _, h⟩ := Out.bind_eq_ok.1 h; obtain ⟨t2, _, h⟩ := Out.bind_eq_ok.1 h; cases h; rfl)
        | (rw [planCall_irFor h]; simp only; split <;> rfl)
  · rw [if_neg (by omega), if_neg (by omega), if_neg (by omega), if_neg (by omega), if_neg (by omega), if_neg (by omega),
      if_pos (.inr hc)] at h
    simp only [hc] at h ⊢
    rcases op_cases q.slot.code with ho | ho | ho | ho | ho | ho | ho | ho | ho | ho | ho | ho | ho | ho | ho | ho <;>
      rw [ho] at h ⊢ <;> simp [condIr] at h <;>
      first
        | (subst h; rfl)
        | (obtain ⟨t, _, h⟩ := Out.bind_eq_ok.1 h; cases h; rfl)
        | (obtain ⟨t, _, h⟩ := Out.bind_eq_ok.1 h; obtain ⟨t2, _, h⟩ := Out.bind_eq_ok.1 h; cases h; rfl)
        | (rw [planCall_irFor h]; simp only; split <;> rfl)
  · rw [if_pos (.inr hc)] at h
    simp only [hc] at h ⊢
    rcases op_cases q.slot.code with ho | ho | ho | ho | ho | ho | ho | ho | ho | ho | ho | ho | ho | ho | ho | ho <;>
      rw [ho] at h ⊢ <;> simp [aluIr] at h <;>
      first
        | (subst h; rfl)
        | (obtain ⟨_, rfl⟩ := h; rfl)
        | (split at h <;> first | (cases h; done) | (simp at h; subst h; rfl))

theorem irFor_ne_phi {s : Slot} {o : Op} (h : irFor s = some (some o)) : o ≠ .phi := by
  unfold irFor at h
  dsimp only at h
  repeat' split at h
  all_goals first | (cases h; done) | (cases h; simp; done) | (cases h; split <;> simp)

theorem build_edges {P : List Slot} {rs : List (Nat × Nat × List Nat)} {b c : Nat} (h : b ∈ predsOf (build P rs) c) :
    c ∈ succsOf (build P rs) b := by
  obtain ⟨k, hk, hm⟩ := mem_preds h
  obtain ⟨r, hr, rfl⟩ := build_get.1 hk
  simp only at hm
  have hb : ∃ rb, rs[b]? = some rb := by
    obtain ⟨p, _, hp⟩ := List.mem_filterMap.1 hm
    unfold parent at hp
    dsimp only at hp
    split at hp
    · rename_i r' hr'
      split at hp
      · cases hp
      · cases hp; exact ⟨r', hr'⟩
    · cases hp
  obtain ⟨rb, hb⟩ := hb
  rw [succs_get (build_get.2 ⟨rb, hb, rfl⟩)]
  simp only [succIds, List.mem_flatMap, List.mem_map, List.mem_filter]
  refine ⟨(r, c), ?_, b, ⟨hm, by simp⟩, rfl⟩
  rw [List.mem_iff_getElem?]
  exact ⟨c, by rw [List.getElem?_zipIdx, hr]; simp⟩

theorem code_ops {C : List Blk} {ins as m xs m1} (h : Tr ins as m xs m1) : ∀ {qs}, Planned C qs as →
    xs.map (fun x => (ins x).op) = qs.filterMap (fun q => (irFor q.slot).join) ∧ ∀ q ∈ qs, (irFor q.slot).isSome = true := by
  induction h with
  | nil => intro qs hp; cases hp; simp
  | cons h0 h1 ih =>
    intro qs hp
    cases hp with
    | @cons q qs' _ _ defd hpl hoff hp' =>
      obtain ⟨i1, i2⟩ := ih hp'
      have hir := plan_irFor hpl
      refine ⟨?_, ?_⟩
      · rw [List.map_append, i1, List.filterMap_cons, hir]
        cases h0 with
        | mov => rfl
        | emit e1 e2 e3 e4 => simp [e3, Act.op]
      · intro q' hq'
        rcases List.mem_cons.1 hq' with rfl | hq'
        · rw [hir]; rfl
        · exact i2 q' hq'

theorem readInsns_covers {P : List Slot} {stop : Nat} : ∀ (k p j : Nat) (s : Slot), stop - p ≤ k → p ≤ j → j < stop → P[j]? = some s → s.code ≠ 0 →
    ∃ q ∈ readInsns P stop k p, q.pos = j ∧ q.slot = s := by
  intro k
  induction k using Nat.strongRecOn with
  | ind k ih =>
    intro p j s hk hp hj hs h0
    cases k with
    | zero => omega
    | succ k =>
      simp only [readInsns]
      rw [if_pos (by omega)]
      by_cases hpj : p = j
      · subst hpj
        have := get!_of hs
        split <;> exact ⟨_, List.mem_cons_self .., rfl, this⟩
      · split
        · rename_i hc
          have hj1 : j ≠ p + 1 := by
            intro e
            subst e
            simp only [Bool.and_eq_true, decide_eq_true_eq, beq_iff_eq] at hc
            rw [get!_of hs] at hc
            exact h0 hc.2
          obtain ⟨q, hq, h1⟩ := ih k (by omega) (p + 2) j s (by omega) (by omega) hj hs h0
          exact ⟨q, List.mem_cons_of_mem _ hq, h1⟩
        · obtain ⟨q, hq, h1⟩ := ih k (by omega) (p + 1) j s (by omega) (by omega) hj hs h0
          exact ⟨q, List.mem_cons_of_mem _ hq, h1⟩

/-- C19.  Any program at all that the lifter accepts: in every block that control can reach, each slot with
a nonzero opcode (after replacing jumps to the next slot) is one of the block's bytecode instructions, each
of these is supported (has an entry in `irFor`), and the instructions of the lifted block behind its phis
are, in order, exactly the ones that `irFor` demands.  Missing: opcode 0, see `C19_violated_zero_opcode`. -/
theorem C19_no_drop_partial {P : List Slot} {n : Nat} {f : Fn} (hf : lift n P = .ok f) :
    ∃ C, genBB P = .ok C ∧ ∀ (b : Nat) (k : Blk), C[b]? = some k → Reach C b →
      (∀ (p : Nat) (s : Slot), k.start ≤ p → p < k.stop → (P.map zeroJump)[p]? = some s → s.code ≠ 0 → ∃ q ∈ k.insns, q.pos = p ∧ q.slot = s) ∧
      (∀ q ∈ k.insns, (irFor q.slot).isSome = true) ∧
      (codeOf f b).map (fun x => (f.insn x).op) = k.insns.filterMap (fun q => (irFor q.slot).join) := by
  unfold lift at hf
  obtain ⟨C, h1, hf⟩ := Out.bind_eq_ok.1 hf
  obtain ⟨s, h2, h3⟩ := Out.bind_eq_ok.1 hf
  cases h3
  have hC : ∃ rs, C = build (P.map zeroJump) rs := by
    simp only [genBB] at h1
    obtain ⟨es, _, h1⟩ := Out.bind_eq_ok.1 h1
    cases h1
    exact ⟨_, rfl⟩
  obtain ⟨rs, rfl⟩ := hC
  obtain ⟨g, hg, h0⟩ := liftBlocks_spec (fun b c hm => build_edges hm) h2
  refine ⟨_, h1, ?_⟩
  intro b k hk hr
  have hfil : s.filled b = true := by
    obtain ⟨n, hn⟩ := hr
    clear hk
    induction hn with
    | zero => exact h0
    | succ _ hc ih => exact (hg.suc _ _ ih hc).resolve_right id
  have hpl := hg.fil b hfil
  rw [insns_get hk] at hpl
  obtain ⟨c1, c2⟩ := code_ops (hg.inv.tr b) hpl
  refine ⟨?_, c2, ?_⟩
  · intro p s' h4 h5 h6 h7
    obtain ⟨r, hr', rfl⟩ := build_get.1 hk
    exact readInsns_covers _ _ _ _ (Nat.le_refl _) h4 h5 h6 h7
  · have hcode : codeOf (toFn (build (P.map zeroJump) rs) s) b = g.code b := by
      unfold codeOf
      have hb : (toFn (build (P.map zeroJump) rs) s).body b = g.phis b ++ g.code b := hg.inv.body b
      rw [hb]
      refine (takeWhile_append_of ?_ ?_).2
      · intro x hx
        have := (hg.inv.phiR b x hx).2
        simp [toFn, this]
      · intro x hx
        have hmem : (s.insn x).op ∈ (g.code b).map (fun x => (s.insn x).op) := List.mem_map.2 ⟨x, hx, rfl⟩
        rw [c1] at hmem
        obtain ⟨q, hq, hj⟩ := List.mem_filterMap.1 hmem
        have hq2 := c2 q hq
        cases hi : irFor q.slot with
        | none => rw [hi] at hq2; simp at hq2
        | some o =>
          rw [hi] at hj
          have : o = some (s.insn x).op := by simpa using hj
          rw [this] at hi
          simpa [toFn] using irFor_ne_phi hi
    rw [hcode]
    exact c1

/-! ## Programs that satisfy the conditions -/

/-- `WellShaped`, computed; `L` is claimed to be reachable, found in `n` rounds. -/
def wsB (n : Nat) (P : List Slot) : Bool :=
  legalB 1 P &&
  (match P[0]? with | some s => s.code != 0 | none => true) &&
  (P.zipIdx).all (fun x => x.1.code != 0 || (match P[x.2 - 1]? with
    | some s => (match decode s with | some (.ldimm _ _) => true | _ => false)
    | none => false)) &&
  (P.zipIdx).all (fun x => match (decode x.1).bind jumpOffset with
    | some off => (match P[((x.2 : Int) + 1 + off.toInt).toNat]? with | some s => s.code != 0 | none => true)
    | none => true) &&
  (List.range P.length).all (fun p => (reachL P n).contains p)
where
  reachL (P : List Slot) : Nat → List Nat
    | 0 => if 0 < P.length then [0] else []
    | n + 1 =>
      let L := reachL P n
      (L ++ L.flatMap (fun p => ((flow P p).filter (fun q => decide (0 ≤ q) && decide (q.toNat < P.length))).map Int.toNat)).eraseDups

theorem reachL_sound {P : List Slot} : ∀ n, ∀ p ∈ wsB.reachL P n, SlotReach P p := by
  intro n
  induction n with
  | zero =>
    intro p hp
    simp only [wsB.reachL] at hp
    split at hp
    · simp at hp; subst hp; exact .first (by assumption)
    · cases hp
  | succ n ih =>
    intro p hp
    simp only [wsB.reachL, List.mem_eraseDups, List.mem_append, List.mem_flatMap, List.mem_map, List.mem_filter, Bool.and_eq_true, decide_eq_true_eq] at hp
    rcases hp with hp | ⟨a, ha, q, ⟨h1, h2, h3⟩, rfl⟩
    · exact ih p hp
    · exact .next (ih a ha) (by rw [Int.toNat_of_nonneg h2]; exact h1) h3

theorem wsB_sound {n : Nat} {P : List Slot} (h : wsB n P = true) : WellShaped P := by
  simp only [wsB, Bool.and_eq_true] at h
  obtain ⟨⟨⟨⟨h1, h2⟩, h3⟩, h4⟩, h5⟩ := h
  obtain ⟨hl, hj⟩ := legalB_sound (by decide) h1
  have hz : ∀ (p : Nat) (s : Slot), P[p]? = some s → (s, p) ∈ P.zipIdx := by
    intro p s hs
    rw [List.mem_iff_getElem?]
    exact ⟨p, by rw [List.getElem?_zipIdx, hs]; simp⟩
  simp only [List.all_eq_true] at h3 h4 h5
  refine ⟨hl, ?_, ?_, ?_, ?_, ?_⟩
  · intro s hs; simpa [hs] using h2
  · intro p s hs h0
    have := h3 _ (hz _ _ hs)
    simp only [h0, Nat.add_sub_cancel] at this
    cases h6 : P[p]? with
    | none => simp [h6] at this
    | some s' =>
      simp only [h6] at this
      cases h7 : decode s' with
      | none => simp [h7] at this
      | some i =>
        cases i with
        | ldimm d k => exact ⟨s', d, k, rfl, h7⟩
        | _ => simp [h7] at this
  · intro p s i off hs hd ho t s' ht hs'
    have := h4 _ (hz _ _ hs)
    simp only [hd, Option.bind_some, ho] at this
    rw [← ht] at this
    simpa [hs'] using this
  · intro p s i off hs hd ho he
    have := hj (by decide) p s i off hs hd ho
    omega
  · intro p hp
    have := h5 p (List.mem_range.2 hp)
    exact reachL_sound n p (by simpa using this)

/-- `Clean`, computed. -/
def cleanB : Instr → Bool
  | .alu w .mov d src => d != 10 && (w || (match src with | .imm i => !i.msb | _ => false))
  | .alu _ _ d _ | .neg _ d | .swap _ d _ | .ldimm d _ => d != 10
  | .ldx sx _ d _ _ => d != 10 && !sx
  | .call fid => fid != 6
  | _ => true

theorem cleanB_sound {i : Instr} (h : cleanB i = true) : Clean i := by
  cases i with
  | alu w op d src =>
    cases op <;> simp only [cleanB, Clean, Bool.and_eq_true, Bool.or_eq_true, bne_iff_ne] at h ⊢ <;> try exact h
    obtain ⟨h1, h2⟩ := h
    refine ⟨h1, ?_⟩
    rcases h2 with h2 | h2
    · exact .inl h2
    · cases src with
      | imm i => exact .inr ⟨i, rfl, by simpa using h2⟩
      | reg r => simp at h2
  | ldx sx sz d s off => simpa [cleanB, Clean] using h
  | _ => first | trivial | simpa [cleanB, Clean] using h

theorem clean_all {P : List Slot} (h : P.all (fun s => match decode s with | some i => cleanB i | none => true) = true) :
    ∀ sl ∈ P, ∀ i, decode sl = some i → Clean i := by
  intro sl hs i hi
  have := List.all_eq_true.1 h sl hs
  rw [hi] at this
  exact cleanB_sound this

/-- Helpers that return 42 and change nothing. -/
def exW : Bpf.World where
  ldimm := fun k v => v + k
  call := fun _ _ args mem => { ret := 42, mem := mem, clob := fun k => args.getD (k - 1) 0 }

def exWI : IR.World := { bpf := exW, arr := fun _ => 0, wid := fun _ => 8 }

theorem exAgree : Agree exW exWI := by
  refine ⟨rfl, fun _ _ _ _ _ => rfl, fun _ _ _ _ _ => rfl, ?_⟩
  intro tr fid args mem k hl h1 h2
  have : k - 1 < args.length := by omega
  simp only [exW, List.getD, List.getElem?_eq_getElem this, Option.getD_some]

def exσ (r1 : BitVec 64) : Bpf.St := { reg := fun r => if r = 1 then r1 else if r = 10 then 0x1000 else 7, mem := fun _ => 0xff, trace := [] }
def exτ (r1 : BitVec 64) : IR.St :=
  { env := fun x => if x = 0 then 0x1000 else if x = 1 then r1 else 7, var := fun _ => 0, mem := fun _ => 0xff, trace := [] }

theorem exStart (v : BitVec 64) : Start (exσ v) (exτ v) := by
  refine ⟨rfl, ?_, rfl, rfl⟩
  intro r h1 h2
  simp only [exσ, exτ]
  repeat' split
  all_goals first | rfl | omega

/-- `r6 = r1; r0 = 0; while (r6 != 0) { r0 += r6; r6 += -1 }; *(u64 *)(r10 - 8) = r0; r2 = 5 ll; call 1; exit` -/
def exL : List Slot :=
  [⟨0xbf, 6, 1, 0, 0⟩, ⟨0xb7, 0, 0, 0, 0⟩, ⟨0x15, 6, 0, 3, 0⟩, ⟨0x0f, 0, 6, 0, 0⟩, ⟨0x07, 6, 0, 0, 0xffffffff⟩, ⟨0x05, 0, 0, 65532, 0⟩,
   ⟨0x7b, 10, 0, 65528, 0⟩, ⟨0x18, 2, 0, 0, 5⟩, ⟨0, 0, 0, 0, 0⟩, ⟨0x85, 0, 0, 0, 1⟩, ⟨0x95, 0, 0, 0, 0⟩]

def bpfRet (W : Bpf.World) (P : List Slot) (j : Nat) (σ : Bpf.St) : Option (BitVec 64 × List Event) :=
  match Bpf.run W P j 0 σ with
  | .done x σ => some (x, σ.trace)
  | _ => none

def irRet (W : IR.World) (P : List Slot) (n j : Nat) (τ : IR.St) : Option (BitVec 64 × List Event) :=
  match lift n P with
  | .ok f =>
    match runFn W f j τ with
    | .done x τ => some (x, τ.trace)
    | _ => none
  | _ => none

/-- The conditions of `C20_reaching_partial` and `C20_result_partial` hold for `exL`, a program with a loop. -/
example : WellShaped exL ∧ exL.length ≤ 32768 ∧ exL ≠ [] ∧ (∀ sl ∈ exL, ∀ i, decode sl = some i → Clean i) ∧ (lift 100 exL).isOk = true ∧
    Agree exW exWI ∧ Start (exσ 3) (exτ 3) :=
  ⟨wsB_sound (n := 12) (by decide +kernel), by decide, by decide, clean_all (by decide +kernel), by decide +kernel, exAgree, exStart 3⟩

/-- Its loop runs three times: 3 + 2 + 1 = 6. -/
example : bpfRet exW exL 100 (exσ 3) = some (42, [⟨1, [3, 5, 7, 7, 7]⟩]) ∧ irRet exWI exL 100 100 (exτ 3) = some (42, [⟨1, [3, 5]⟩]) := by
  decide +kernel

/-- C17 and C18 on `r3 -= r4` (32 bits) and on a store. -/
example : decode ⟨0x1c, 3, 4, 0, 0⟩ = some (.alu false .sub 3 (.reg 4)) ∧ isAlu (.alu false .sub 3 (.reg 4)) = true ∧
    decode ⟨0x63, 10, 1, 0xfffc, 0⟩ = some (.stx .w 10 1 0xfffc) := by decide

/-! ## Where the code breaks C17-C20 and C50 -/

/-- `w0 = w1; exit`: the upper half must be cleared, and is not. -/
theorem C17_violated_mov32 : WellShaped [⟨0xbc, 0, 1, 0, 0⟩, ⟨0x95, 0, 0, 0, 0⟩] ∧
    bpfRet exW [⟨0xbc, 0, 1, 0, 0⟩, ⟨0x95, 0, 0, 0, 0⟩] 9 (exσ 0x700000001) = some (1, []) ∧
    irRet exWI [⟨0xbc, 0, 1, 0, 0⟩, ⟨0x95, 0, 0, 0, 0⟩] 9 9 (exτ 0x700000001) = some (0x700000001, []) :=
  ⟨wsB_sound (n := 3) (by decide +kernel), by decide +kernel⟩

/-- `w0 = -1; exit`: 0xffffffff becomes -1. -/
theorem C17_violated_mov32_imm : WellShaped [⟨0xb4, 0, 0, 0, 0xffffffff⟩, ⟨0x95, 0, 0, 0, 0⟩] ∧
    bpfRet exW [⟨0xb4, 0, 0, 0, 0xffffffff⟩, ⟨0x95, 0, 0, 0, 0⟩] 9 (exσ 0) = some (0xffffffff, []) ∧
    irRet exWI [⟨0xb4, 0, 0, 0, 0xffffffff⟩, ⟨0x95, 0, 0, 0, 0⟩] 9 9 (exτ 0) = some (0xffffffffffffffff, []) :=
  ⟨wsB_sound (n := 3) (by decide +kernel), by decide +kernel⟩

/-- `r0 = *(s8 *)(r1 + 0); exit` with 0xff in memory: -1 becomes 255. -/
theorem C18_violated_memsx : WellShaped [⟨0x91, 0, 1, 0, 0⟩, ⟨0x95, 0, 0, 0, 0⟩] ∧
    bpfRet exW [⟨0x91, 0, 1, 0, 0⟩, ⟨0x95, 0, 0, 0, 0⟩] 9 (exσ 0) = some (0xffffffffffffffff, []) ∧
    irRet exWI [⟨0x91, 0, 1, 0, 0⟩, ⟨0x95, 0, 0, 0, 0⟩] 9 9 (exτ 0) = some (0xff, []) :=
  ⟨wsB_sound (n := 3) (by decide +kernel), by decide +kernel⟩

/-- `r0 = 1; <opcode 0>; exit`: opcode 0 is no instruction, but the program is accepted and the slot
dropped. -/
theorem C19_violated_zero_opcode : irFor ⟨0, 0, 0, 0, 0⟩ = none ∧ decode ⟨0, 0, 0, 0, 0⟩ = none ∧
    irRet exWI [⟨0xb7, 0, 0, 0, 1⟩, ⟨0, 0, 0, 0, 0⟩, ⟨0x95, 0, 0, 0, 0⟩] 9 9 (exτ 0) = some (1, []) := by decide +kernel

def irStuck (W : IR.World) (P : List Slot) (n j : Nat) (τ : IR.St) : Bool :=
  match lift n P with
  | .ok f =>
    match runFn W f j τ with
    | .stuck => true
    | _ => false
  | _ => false

/-- `r0 = 1; if r1 == 0 goto +2; exit; <dead: r0 = 2>; exit`: the last block has a predecessor that is
never visited, so it is never sealed and the phi for r0 keeps no operands. -/
def deadP : List Slot := [⟨0xb7, 0, 0, 0, 1⟩, ⟨0x15, 1, 0, 2, 0⟩, ⟨0x95, 0, 0, 0, 0⟩, ⟨0xb7, 0, 0, 0, 2⟩, ⟨0x95, 0, 0, 0, 0⟩]

theorem C20_violated_dead_predecessor : Legal deadP ∧ bpfRet exW deadP 9 (exσ 0) = some (1, []) ∧ irStuck exWI deadP 9 9 (exτ 0) = true :=
  ⟨(legalB_sound (lo := 1) (by decide) (by decide +kernel)).1, by decide +kernel⟩

/-- A loop back to the first slot (`loopP`): the lifted function is empty. -/
theorem C20_violated_loop_to_start : bpfRet exW loopP 9 (exσ 1) = some (7, []) ∧ irStuck exWI loopP 9 9 (exτ 1) = true := by decide +kernel

/-- `r10 = 5; r0 = r10; exit`: accepted, but reads of r10 do not see the write. -/
theorem C20_violated_r10 :
    bpfRet exW [⟨0xb7, 10, 0, 0, 5⟩, ⟨0xbf, 0, 10, 0, 0⟩, ⟨0x95, 0, 0, 0, 0⟩] 9 (exσ 0) = some (5, []) ∧
    irRet exWI [⟨0xb7, 10, 0, 0, 5⟩, ⟨0xbf, 0, 10, 0, 0⟩, ⟨0x95, 0, 0, 0, 0⟩] 9 9 (exτ 0) = some (0x1000, []) := by decide +kernel

/-- `r3 = 9; if r1 == 0 goto +1; r2 = 1; call 6; exit`: `trace_printk` prints r3, but the block of the
call does not set r3, so the lifted call has no third argument. -/
def printkP : List Slot :=
  [⟨0xb7, 3, 0, 0, 9⟩, ⟨0x15, 1, 0, 1, 0⟩, ⟨0xb7, 2, 0, 0, 1⟩, ⟨0x85, 0, 0, 0, 6⟩, ⟨0x95, 0, 0, 0, 0⟩]

theorem C50_violated_printk : WellShaped printkP ∧ bpfRet exW printkP 9 (exσ 4) = some (42, [⟨6, [4, 1, 9, 7, 7]⟩]) ∧
    irRet exWI printkP 30 30 (exτ 4) = some (42, [⟨6, [4, 1]⟩]) :=
  ⟨wsB_sound (n := 6) (by decide +kernel), by decide +kernel⟩

end Verif.Lift
