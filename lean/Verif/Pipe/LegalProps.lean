import Verif.Compile.LegalProps
import Verif.Compile.Handed
import Verif.Pipe.SafeProps
/-!
# C80 for whole runs: what `bpf_ir_autorun` leaves in place of the program is a program of whole instructions
-/
namespace Verif.Pipe
open Verif Verif.IR
open Verif.Bpf (Slot Formed Closed)
open Verif.Flatten (graphOf)

/-- No load has a constant as its address. -/
def Computed (bs : List Emit.FBlock) : Prop := ∀ b ∈ bs, ∀ i ∈ b.insns, i.op = .loadraw → ∀ k c ct d, i.addr ≠ .const k c ct d

/-- The last block ends with a return or a jump. -/
def Stops (bs : List Emit.FBlock) : Prop := ∃ A b xs i, bs = A ++ [b] ∧ b.insns = xs ++ [i] ∧ (i.op = .ret ∨ i.op = .ja)

theorem compiled_formed {f : Fn} {R : List Nat} {r : Compile.Result} (e : Compile.compile f R = .ok r) (hw : Computed r.blocks) (hlen : r.code.length ≤ 32768) :
    Formed r.code ∧ (Stops r.blocks → Closed r.code) := by
  unfold Compile.compile at e
  obtain ⟨p, -, e⟩ := Out.bind_eq_ok.1 e
  obtain ⟨al, -, e⟩ := Out.bind_eq_ok.1 e
  obtain ⟨c, -, e⟩ := Out.bind_eq_ok.1 e
  obtain ⟨m, -, e⟩ := Out.bind_eq_ok.1 e
  dsimp only at e
  obtain ⟨t, -, e⟩ := Out.bind_eq_ok.1 e
  obtain ⟨bs, -, e⟩ := Out.bind_eq_ok.1 e
  obtain ⟨code, he, e⟩ := Out.bind_eq_ok.1 e
  injection e with e
  subst e
  exact Compile.C80_emitted he hw hlen

/-- Every load and every store has an address that is computed: the result of an instruction, an argument or the stack pointer. -/
def NoFixedAccess (f : Fn) : Prop := ∀ x, InBody f x → (f.insn x).op = .storeraw ∨ (f.insn x).op = .loadraw → ∃ y, (f.insn x).addr = .insn y

theorem marked_access {f : Fn} (h : NoFixedAccess f) : NoFixedAccess (marked f) := by
  intro x hx ho
  rw [(marked_same f x).1] at ho
  obtain ⟨y, e⟩ := h x hx ho
  rcases marked_cases f x with e' | ⟨c, ct, b, ho', _, _⟩
  · exact ⟨y, by rw [e', e]⟩
  · rw [ho'] at ho; rcases ho with ho | ho <;> cases ho

/-- In a layout the last block does not go on to another block. -/
theorem last_ends {f : Fn} (h : Code f) {R : List Nat} (hl : LaidOut f R) : ∃ A c pre x, R = A ++ [c] ∧ f.body c = pre ++ [x] ∧ ((f.insn x).op = .ret ∨ (f.insn x).op = .ja) := by
  have hne : R ≠ [] := fun e => by have := hl.first; rw [e] at this; cases this
  rcases List.eq_nil_or_concat R with e | ⟨A, c, e⟩
  · exact absurd e hne
  rw [List.concat_eq_append] at e
  have hc : c ∈ R := by rw [e]; simp
  have hno : ∀ b, ¬ Layout.Falls (graphOf f) c b := fun b hf => by
    obtain ⟨X, Y, e'⟩ := hl.next c hc b hf
    have hn := hl.nodup
    have e1 : A ++ [c] = (X ++ c :: b :: Y) := e ▸ e'
    have hA : c ∉ A := fun hm => by rw [e] at hn; exact (List.nodup_append.1 hn).2.2 c hm c (by simp) rfl
    have h2 := congrArg List.getLast? e1
    simp only [List.getLast?_append, List.getLast?_singleton, Option.some_or, List.getLast?_cons_cons] at h2
    have hcm : c ∈ b :: Y := List.mem_of_getLast? (by
      cases h3 : (b :: Y).getLast? with
      | none => simp at h3
      | some z => rw [h3, Option.some_or] at h2; exact h2.symm)
    rw [e'] at hn
    exact (List.nodup_cons.1 (List.nodup_append.1 hn).2.1).1 hcm
  have hr := h.route c ((hl.mem c).1 hc)
  cases hr with
  | fall b h1 h2 =>
    refine absurd (.inl ⟨h2, ?_⟩) (hno b)
    rcases (Route.fall b h1 h2 : Route f c).last with ⟨t, e, _⟩ | ⟨t, e', e, e2⟩ | ⟨e, _, _⟩
    · obtain ⟨pre, x, e1, e2, _⟩ := Flatten.lastOf_ja e
      have := h1 x (by rw [e1]; simp)
      rw [e2] at this
      cases this
    · rw [h2] at e2; simp at e2
    · unfold Layout.Blk.jaTo graphOf
      dsimp only
      split
      · next t e' => exact absurd e' (e t)
      · rfl
  | cond x pre h1 h2 h3 => exact absurd (.inr ⟨_, h3⟩) (hno _)
  | ja x pre h1 h2 h3 => exact ⟨A, c, pre, x, e, h1, .inr h2⟩
  | ret x pre h1 h2 h3 => exact ⟨A, c, pre, x, e, h1, .inl h2⟩

/-- The last pass and code generation. -/
theorem emitted_of {opt fn : Fn} {blocks : List Nat} {fuel : Nat} {check : Bool} {r : Compile.Result} (h1 : Code opt) (h6 : NoPrintk opt)
    (ep : pass fuel check (fun _ f => Stack.pre f) (opt, []) = .ok (fn, blocks)) (ec : Compile.compile fn blocks = .ok r)
    (hform : ∀ x, InBody opt x → Stack.Form opt.sp 0 .plain (opt.insn x)) (hacc : NoFixedAccess opt) (hlen : r.code.length ≤ 32768) : Formed r.code ∧ Closed r.code := by
  obtain ⟨rfl, hc, hl, hno, hF, -⟩ := marked_of h1 h6 ep hform
  have ha := marked_access hacc
  obtain ⟨k1, k2⟩ := Compile.compile_shape (hc.ready hl hno) (hc.neat hl) (hc.fits hl hF)
    (fun b hb x hx ho => absurd ho (hc.plain (.inr (.inr ⟨b, (hl.mem b).1 hb, hx⟩))).2) hc.tight (hc.noSelf hl)
    (fun _ ⟨b, hb, hx⟩ => (hc.insn _ ⟨b, (hl.mem b).1 hb, hx⟩).sturdy fun o => ha _ ⟨b, (hl.mem b).1 hb, hx⟩ (o.imp id And.right)) hl.mem hc.graph (hc.steps hl) ec
  obtain ⟨A, c, pre, x, e1, e2, e3⟩ := last_ends hc hl
  have := compiled_formed ec (fun b hb i hi ho k c ct d e => by
    obtain ⟨p, e'⟩ := k1 b hb i hi ho
    rw [e'] at e
    cases e) hlen
  exact ⟨this.1, this.2 (k2 A c pre x e1 e2 e3)⟩

/-- **C80** for whole runs, with or without `div_by_zero`.  For every program that a loader accepts (`Fair`): if the run ends without an error, the optimised function uses the frame pointer in
the usual forms only and has no load or store with a constant address, and the new program has at most 32768 slots, then every slot of it is an instruction or the second half of a wide load, all
wide loads are complete, all jumps lead to the start of an instruction, and control cannot run past the end.
Missing: the condition on addresses, which is needed (`C80_violated`), and that on the frame pointer are on the optimised function; with `div_by_zero` no phi may be fed from a block with a
division. -/
theorem C80_run_partial {P : List Slot} (hP : Fair P) {n fuel : Nat} {check : Bool} :
    (∀ A, autorun n fuel check P = .ok A → (∀ x, InBody A.opt x → Stack.Form A.opt.sp 0 .plain (A.opt.insn x)) → NoFixedAccess A.opt → A.res.code.length ≤ 32768 →
      Formed A.res.code ∧ Closed A.res.code) ∧
    (∀ A, autorunGuards n fuel check P = .ok A → NoLabels A.reach A.lifted → (∀ x, InBody A.opt x → Stack.Form A.opt.sp 0 .plain (A.opt.insn x)) → NoFixedAccess A.opt →
      A.res.code.length ≤ 32768 → Formed A.res.code ∧ Closed A.res.code) := by
  constructor
  · intro A e hF ha hlen
    obtain ⟨h1, h6, -, -, -, ep, ec⟩ := autorun_parts hP.shaped hP.closed hP.len hP.usual hP.clean e
    exact emitted_of h1 h6 ep ec hF ha hlen
  · intro A e hn hF ha hlen
    obtain ⟨h1, h6, -, -, -, ep, ec⟩ := guarded_parts hP.shaped hP.closed hP.len hP.usual hP.clean e hn
    exact emitted_of h1 h6 ep ec hF ha hlen

/-- The same for any program and without conditions on the optimised function, but with conditions on the blocks that are handed to emission. -/
theorem C80_any_partial (P : List Slot) {n fuel : Nat} {check : Bool} :
    (∀ A, autorun n fuel check P = .ok A → Computed A.res.blocks → A.res.code.length ≤ 32768 → Formed A.res.code ∧ (Stops A.res.blocks → Closed A.res.code)) ∧
    (∀ A, autorunGuards n fuel check P = .ok A → Computed A.res.blocks → A.res.code.length ≤ 32768 → Formed A.res.code ∧ (Stops A.res.blocks → Closed A.res.code)) := by
  constructor
  · intro A e hw hlen
    unfold autorun at e
    obtain ⟨s, -, e⟩ := Out.bind_eq_ok.1 e
    obtain ⟨s1, -, e⟩ := Out.bind_eq_ok.1 e
    obtain ⟨t, -, e⟩ := Out.bind_eq_ok.1 e
    obtain ⟨r, hr, e⟩ := Out.bind_eq_ok.1 e
    injection e with e
    subst e
    exact compiled_formed hr hw hlen
  · intro A e hw hlen
    unfold autorunGuards at e
    obtain ⟨s, -, e⟩ := Out.bind_eq_ok.1 e
    obtain ⟨s1, -, e⟩ := Out.bind_eq_ok.1 e
    obtain ⟨t, -, e⟩ := Out.bind_eq_ok.1 e
    obtain ⟨r, hr, e⟩ := Out.bind_eq_ok.1 e
    injection e with e
    subst e
    exact compiled_formed hr hw hlen

/-! ## The hypotheses hold for a program with a load, and fail for one with a known address -/

/-- A test for the conditions on the optimised function. -/
def heldB (g : Fn) : Bool := g.allBbs.all fun b => (g.body b).all fun x => plainB g.sp 0 (g.insn x) &&
  (!decide ((g.insn x).op = .storeraw ∨ (g.insn x).op = .loadraw) || match (g.insn x).addr with | .insn _ => true | _ => false)

theorem held_of_check {g : Fn} (h : heldB g = true) : (∀ x, InBody g x → Stack.Form g.sp 0 .plain (g.insn x)) ∧ NoFixedAccess g := by
  have key : ∀ x, InBody g x → plainB g.sp 0 (g.insn x) = true ∧
      (!decide ((g.insn x).op = .storeraw ∨ (g.insn x).op = .loadraw) || match (g.insn x).addr with | .insn _ => true | _ => false) = true := by
    rintro x ⟨b, hb, hx⟩
    have := List.all_eq_true.1 (List.all_eq_true.1 h b hb) x hx
    rwa [Bool.and_eq_true] at this
  refine ⟨fun x hx => plain_of_check (key x hx).1, fun x hx ho => ?_⟩
  have := (key x hx).2
  rw [decide_eq_true ho] at this
  split at this
  · rename_i y e; exact ⟨y, e⟩
  · cases this

/-- `r2 = *(u64 *)(r1 + 8); if r2 == 0 goto +1; r2 += 7; r0 = r2; exit`. -/
def exRead : List Slot := [⟨0x79, 2, 1, 8, 0⟩, ⟨0x15, 2, 0, 1, 0⟩, ⟨0x07, 2, 0, 0, 7⟩, ⟨0xbf, 0, 2, 0, 0⟩, ⟨0x95, 0, 0, 0, 0⟩]

example : ∃ A, autorun 100 100 true exRead = .ok A ∧ Formed A.res.code ∧ Closed A.res.code ∧ 5 < A.res.code.length := by
  have h : Cg.onOk (autorun 100 100 true exRead) (fun A => heldB A.opt && (decide (A.res.code.length ≤ 32768) && decide (5 < A.res.code.length))) = true := by decide +kernel
  obtain ⟨A, e, h⟩ := Cg.of_onOk h
  simp only [Bool.and_eq_true, decide_eq_true_eq] at h
  obtain ⟨k1, k2⟩ := held_of_check h.1
  have k := (C80_run_partial (fair_of_check (by decide +kernel : fairB exRead = true))).1 A e k1 k2 h.2.1
  exact ⟨A, e, k.1, k.2, h.2.2⟩

example : ∃ A, autorunGuards 100 100 true exDivide = .ok A ∧ Formed A.res.code ∧ Closed A.res.code := by
  have h : Cg.onOk (autorunGuards 100 100 true exDivide) (fun A => noLabelsB A.reach A.lifted && (heldB A.opt && decide (A.res.code.length ≤ 32768))) = true := by decide +kernel
  obtain ⟨A, e, h⟩ := Cg.of_onOk h
  simp only [Bool.and_eq_true, decide_eq_true_eq] at h
  obtain ⟨k1, k2⟩ := held_of_check h.2.1
  have k := (C80_run_partial (fair_of_check (by decide +kernel : fairB exDivide = true))).2 A e (noLabels_of_check h.1) k1 k2 h.2.2
  exact ⟨A, e, k.1, k.2⟩

/-- `r1 = 5; r0 = *(u8 *)(r1 + 0); exit`. -/
def exByte : List Slot := [⟨0xb7, 1, 0, 0, 5⟩, ⟨0x71, 0, 1, 0, 0⟩, ⟨0x95, 0, 0, 0, 0⟩]

/-- **C80** does not hold of all programs: the address of the load is known, so the passes put it into the load, and `load_addr_to_reg` (core/ir_cg_norm.c:717-724) makes an immediate load of the
size of the access out of it; its opcode is `0x10`, which no instruction has.  The run ends without an error. -/
theorem C80_violated : Fair exByte ∧ Formed exByte ∧ ∃ A, autorun 100 100 true exByte = .ok A ∧ A.res.code = [⟨0x10, 0, 0, 0, 5⟩, ⟨0x00, 0, 0, 0, 0⟩, ⟨0x95, 0, 0, 0, 0⟩] ∧
    ¬ Formed A.res.code := by
  have h : Cg.onOk (autorun 100 100 true exByte) (fun A => decide (A.res.code = [⟨0x10, 0, 0, 0, 5⟩, ⟨0x00, 0, 0, 0, 0⟩, ⟨0x95, 0, 0, 0, 0⟩])) = true := by decide +kernel
  have hF : Fair exByte := fair_of_check (by decide +kernel)
  obtain ⟨A, e, h⟩ := Cg.of_onOk h
  have h := of_decide_eq_true h
  refine ⟨hF, ⟨hF.shaped.legal, hF.shaped.first, hF.shaped.half, hF.shaped.into⟩, A, e, h, fun k => ?_⟩
  rw [h] at k
  exact absurd (k.legal.enc _ List.mem_cons_self) (by decide +kernel)

/-- `r1 = 5; r0 = *(u64 *)(r1 + 0); exit`. -/
def exWord : List Slot := [⟨0xb7, 1, 0, 0, 5⟩, ⟨0x79, 0, 1, 0, 0⟩, ⟨0x95, 0, 0, 0, 0⟩]

/-- **C60** does not hold of all runs: with eight bytes instead of one the immediate load is an instruction, and the new program returns the address instead of what is stored there. -/
theorem C60_violated_load : Fair exWord ∧ both exWord = some (0, 5) ∧ Broken exWord :=
  ⟨fair_of_check (by decide +kernel), by decide +kernel, broken (v := 0) (w := 5) (by decide +kernel) (by decide)⟩

end Verif.Pipe
