import Verif.Flatten.Run
import Verif.Cg.Examples
import Verif.Loc.Run
/-!
# C55: flattening
-/
namespace Verif.Flatten
open Verif Verif.IR Verif.Loc
open Verif.Norm (VrPos FVal FInsn posType)

/-- **C55**: flattening (each operand is replaced by the position of its value) succeeds and keeps the order of the blocks.  The program of registers and memory
does what the function on places does: as long as no load or store of the program touches the slots of spilled values, the one returns `x` after
`n` steps if the other one does, with the same registers, the same memory outside of these slots and the same calls; and it goes on as long as the other one does. -/
theorem C55_flat {f : Fn} {R : List Nat} {dst : Nat → Option Nat} {pos : Nat → VrPos} (h : Placed f R dst pos) (hf : Flow f R) :
    ∃ bs is, flatten f dst pos R = .ok bs ∧ bs.map (·.id) = R ∧ Flat.body bs f.entry = some is ∧
      ∀ (M : Bpf.World) (W : World) p τ σ, Serves f R pos p M W → Mirror f R pos p τ σ → Sane W f R pos p τ →
        ∀ n, Loc.runFn W f (places pos) n τ = .stuck ∨ Follows f R pos p (Loc.runFn W f (places pos) n τ) (Flat.runB M bs (next f) n f.entry is σ) := by
  refine ⟨_, _, flatten_ok h (fun _ hb => hb), ?_, body_flat hf.entry, ?_⟩
  · rw [List.map_map]
    show R.map (fun b => b) = R
    exact List.map_id R
  · intro M W p τ σ hW hm hs n
    exact run_flat h hf hW n (pre := []) hm hf.entry rfl (fun m b' x r τ' e => hs m b' x r τ' e)

/-! ## Example -/

/-- The named instructions. -/
def namesL (f : Fn) (R : List Nat) : List Nat :=
  R.flatMap fun b => (f.body b).flatMap fun x => x :: (((f.insn x).addr :: (f.insn x).vals).flatMap fun v => match v with | .insn y => [y] | _ => [])

theorem mem_namesL {f : Fn} {R : List Nat} {y : Nat} : y ∈ namesL f R ↔ Names f R y := by
  simp only [namesL, List.mem_flatMap, List.mem_cons, Names]
  constructor
  · rintro ⟨b, hb, x, hx, rfl | ⟨v, hv, hy⟩⟩
    · exact ⟨b, hb, y, hx, .inl rfl⟩
    · cases v with
      | insn z =>
        rw [List.mem_singleton.1 hy]
        rcases hv with hv | hv
        · exact ⟨b, hb, x, hx, .inr (.inr hv.symm)⟩
        · exact ⟨b, hb, x, hx, .inr (.inl hv)⟩
      | const k c t u => cases hy
      | undef => cases hy
  · rintro ⟨b, hb, x, hx, h | h | h⟩
    · exact ⟨b, hb, x, hx, .inl h⟩
    · exact ⟨b, hb, x, hx, .inr ⟨_, .inr h, by simp⟩⟩
    · exact ⟨b, hb, x, hx, .inr ⟨_, .inl h.symm, by simp⟩⟩

instance (q : VrPos) : Decidable (OnStack q) := inferInstanceAs (Decidable (_ ∧ _))

/-- The spilled values. -/
def spilledL (f : Fn) (R : List Nat) (pos : Nat → VrPos) : List Nat :=
  (namesL f R).filter fun y => decide ((f.insn y).op ≠ .allocarray) && decide (OnStack (pos y))

theorem mem_spilledL {f : Fn} {R : List Nat} {pos : Nat → VrPos} {y : Nat} : y ∈ spilledL f R pos ↔ Spilled f R pos y := by
  simp only [spilledL, List.mem_filter, mem_namesL, Bool.and_eq_true, decide_eq_true_eq, Spilled]

def insnsL (v : Val) : List Nat := match v with | .insn y => [y] | _ => []

/-- A test for `Placed`. -/
def placedB (f : Fn) (R : List Nat) (dst : Nat → Option Nat) (pos : Nat → VrPos) : Bool :=
  R.all (fun b => (f.body b).all fun x =>
    let i := f.insn x
    decide (i.op ≠ .phi ∧ i.op ≠ .throw) &&
    ((i.addr :: i.vals).flatMap insnsL).all (fun y => decide (dst y = some y ∧ (pos y).allocated = true)) &&
    decide (hasResult i.op = true → i.op ≠ .alloc → dst x = some x ∧ (pos x).allocated = true ∧ ((pos x).spilled = 0 → (pos x).reg ≠ 10)) &&
    (!decide (i.op = .load ∨ i.op = .store) || (match i.vals with
      | .insn a :: _ => decide ((f.insn a).op = .alloc ∧ ((pos a).spilled = 0 → (pos a).reg ≠ 10))
      | _ => false)) &&
    (i.vals.flatMap insnsL).all (fun y => decide ((f.insn y).op = .allocarray → i.op = .getelemptr ∧ i.vals = [i.vals.headD .undef, .insn y] ∧ i.vals.headD .undef ≠ .insn y)) &&
    (!decide (i.op = .getelemptr) || (match i.vals with
      | [_, .insn y] => decide (OnStack (pos y) → (f.insn y).op = .allocarray)
      | _ => false)) &&
    (!decide (i.op = .loadraw ∨ i.op = .storeraw) || (match i.addr with
      | .insn y => decide (OnStack (pos y) → (f.insn y).op = .allocarray)
      | .const k _ _ _ => decide (k = .plain)
      | .undef => true))) &&
  (namesL f R).all (fun y => decide ((f.insn y).op = .allocarray → OnStack (pos y)) && decide (-2 ^ 31 ≤ (pos y).spilled ∧ (pos y).spilled < 2 ^ 31) &&
    (spilledL f R pos).all (fun z => decide ((f.insn y).op = .allocarray → (pos z).spilled ≠ (pos y).spilled))) &&
  (spilledL f R pos).all (fun y => (spilledL f R pos).all fun z =>
    decide ((pos y).spilled = (pos z).spilled ∨ (pos y).spilled + 8 ≤ (pos z).spilled ∨ (pos z).spilled + 8 ≤ (pos y).spilled))

theorem mem_insnsL {f : Fn} {x y : Nat} (h : .insn y ∈ (f.insn x).vals ∨ (f.insn x).addr = .insn y) : y ∈ ((f.insn x).addr :: (f.insn x).vals).flatMap insnsL := by
  refine List.mem_flatMap.2 ⟨.insn y, ?_, by simp [insnsL]⟩
  rcases h with h | h
  · exact List.mem_cons_of_mem _ h
  · rw [← h]
    exact List.mem_cons_self

theorem placed_of_check {f : Fn} {R : List Nat} {dst : Nat → Option Nat} {pos : Nat → VrPos} (h : placedB f R dst pos = true) : Placed f R dst pos := by
  simp only [placedB, Bool.and_eq_true, List.all_eq_true, decide_eq_true_eq, Bool.or_eq_true, Bool.not_eq_true', decide_eq_false_iff_not] at h
  obtain ⟨⟨h1, h2⟩, h3⟩ := h
  refine ⟨fun b hb x hx => (h1 b hb x hx).1.1.1.1.1.1, fun b hb x hx y hy => (h1 b hb x hx).1.1.1.1.1.2 y (mem_insnsL hy), fun b hb x hx => (h1 b hb x hx).1.1.1.1.2, ?_, ?_, ?_, ?_, ?_, ?_, ?_, ?_⟩
  · intro b hb x hx ho
    rcases (h1 b hb x hx).1.1.1.2 with h | h
    · exact absurd ho h
    · split at h
      · next a r e =>
        rw [decide_eq_true_eq] at h
        exact ⟨a, r, e, h⟩
      · cases h
  · exact fun y hy => (h2 y (mem_namesL.2 hy)).1.1
  · intro b hb x hx y hy ho
    obtain ⟨h4, h5, h6⟩ := (h1 b hb x hx).1.1.2 y (List.mem_flatMap.2 ⟨_, hy, by simp [insnsL]⟩) ho
    exact ⟨h4, _, h5, h6⟩
  · intro b hb x hx ho v w e
    rcases (h1 b hb x hx).1.2 with h | h
    · exact absurd ho h
    · rw [e] at h
      cases w with
      | insn y => exact ⟨y, rfl, of_decide_eq_true h⟩
      | const k c t u => cases h
      | undef => cases h
  · intro b hb x hx ho
    rcases (h1 b hb x hx).2 with h | h
    · exact absurd ho h
    · constructor
      · intro y e
        rw [e] at h
        exact of_decide_eq_true h
      · intro k c t u e
        rw [e] at h
        exact of_decide_eq_true h
  · exact fun y z hy hz => h3 y (mem_spilledL.2 hy) z (mem_spilledL.2 hz)
  · exact fun y z hy hz ho => (h2 z (mem_namesL.2 hz)).2 y (mem_spilledL.2 hy) ho
  · exact fun y hy => (h2 y (mem_namesL.2 hy)).1.2

open Verif.Cg (mkFn dstOf)
open Verif.Edit (mkAssign mkJa mkBin mkJbin mkRet)

/-- A 32-bit constant. -/
def c32 (n : Nat) : Val := .const .plain (BitVec.ofNat 64 n) .w32 .none

/-- A variable (11), an array (12) and a spilled value (13) on the stack, a loop, a call. -/
def exF : Fn := mkFn [
  ([(11, { op := .alloc, vrType := .t64 }), (12, { op := .allocarray, aux := 2, vrType := .t64 }), (13, mkAssign (.insn 1)),
    (14, { op := .store, vals := [.insn 11, .insn 1] }), (15, { op := .getelemptr, vals := [c32 8, .insn 12] }),
    (16, { op := .storeraw, vals := [.insn 1], addr := .insn 15, vrType := .t64 }), (17, mkJa 1)], [1]),
  ([(18, { op := .load, vals := [.insn 11], vrType := .t64 }), (19, mkBin .add .w64 (.insn 18) (c32 1)), (20, { op := .store, vals := [.insn 11, .insn 19] }),
    (21, mkJbin .jlt .w64 (.insn 19) (c32 100) 2 1)], [2, 1]),
  ([(22, { op := .loadraw, addr := .insn 15, vrType := .t64 }), (23, mkBin .add .w64 (.insn 13) (.insn 22)), (24, mkAssign (.insn 23)),
    (25, { op := .call, aux := 17 }), (26, mkRet (.insn 0))], [])]

def exR : List Nat := [0, 1, 2]

def exPos (x : Nat) : VrPos :=
  if x ≤ 10 then ⟨true, Fin.ofNat 11 x, 0⟩
  else match x with
    | 11 => ⟨true, 0, -8⟩
    | 12 => ⟨true, 0, -24⟩
    | 13 => ⟨true, 0, -32⟩
    | 15 => ⟨true, 6, 0⟩
    | 18 | 19 | 23 => ⟨true, 7, 0⟩
    | 22 => ⟨true, 8, 0⟩
    | 24 => ⟨true, 1, 0⟩
    | _ => ⟨false, 0, 0⟩

theorem exF_placed : Placed exF exR (dstOf exF) exPos := placed_of_check (by decide +kernel)

theorem exF_flow : Flow exF exR := Cg.flow_of_check (by decide +kernel)

/-- A world whose helpers return the sum of their arguments. -/
def exM : Bpf.World where
  ldimm _ v := v
  call _ fid as m := ⟨(as.take (Lift.arity fid)).foldl (· + ·) 0, m, fun _ => 0⟩

def exW (p : BitVec 64) : World := ⟨exM, fun y => slot p (exPos y), fun _ => 8⟩

theorem exW_serves (p : BitVec 64) : Serves exF exR exPos p exM (exW p) := by
  refine ⟨fun _ _ _ => rfl, ?_, rfl, ?_, fun _ _ _ _ _ _ _ _ => rfl, fun _ _ _ _ _ _ h => h, fun _ _ _ _ _ _ => rfl⟩
  · have : ∀ y ∈ namesL exF exR, (exF.insn y).op = .alloc → Flat.bytes (exF.insn y).vrType = some 8 := by decide +kernel
    exact fun y hy => this y (mem_namesL.2 hy)
  · intro tr fid as m m' _ _
    simp [exM, exW, List.take_take]

/-- The machine at the start: r1 = 98, r10 = 0x1000, empty memory. -/
def exσ : Bpf.St := ⟨fun r => if r = 10 then 0x1000 else if r = 1 then 98 else 0, fun _ => 0, []⟩

def exτ : Loc.St := ⟨fun q => if q = placeOf (exPos 12) then 0x1000 - 24 else exσ.reg q, fun _ => 0, []⟩

theorem load_zero : ∀ n a, Bpf.load n (fun _ => 0) a = 0
  | 0, _ => rfl
  | n + 1, a => by
    unfold Bpf.load
    rw [load_zero n]
    simp

theorem ex_mirror : Mirror exF exR exPos 0x1000 exτ exσ := by
  refine ⟨rfl, ?_, ?_, ?_, fun _ _ => rfl, rfl⟩
  · intro r hr
    show exσ.reg r = (if r = _ then _ else exσ.reg r)
    rw [if_neg]
    intro e
    have : placeOf (exPos 12) = 83 := by decide
    omega
  · intro y hy
    show Bpf.load 8 (fun _ => 0) _ = _
    rw [load_zero]
    have : ∀ y ∈ spilledL exF exR exPos, 0 = exτ.cell (placeOf (exPos y)) := by decide +kernel
    exact this y (mem_spilledL.2 hy)
  · have : ∀ y ∈ namesL exF exR, (exF.insn y).op = .allocarray → exτ.cell (placeOf (exPos y)) = slot 0x1000 (exPos y) := by decide +kernel
    exact fun y hy => this y (mem_namesL.2 hy)

/-- A function that has returned does nothing more. -/
theorem done_more {W : World} {f : Fn} {l : Nat → Nat} {v : BitVec 64} {τ' : Loc.St} (d : Nat) : ∀ (n b : Nat) (rest : List Nat) (τ : Loc.St),
    Loc.run W f l n b rest τ = .done v τ' → Loc.run W f l (n + d) b rest τ = .done v τ'
  | 0, _, _, _, h => by cases h
  | n + 1, b, rest, τ, h => by
    rw [Nat.succ_add]
    unfold Loc.run at h ⊢
    revert h
    cases Loc.step W f l b rest τ with
    | goto b' r' τ2 => exact done_more d n b' r' τ2
    | done x => exact id
    | thrown => exact id
    | stuck => exact id

/-- A test for `Sane` at one step. -/
def saneB (W : World) (f : Fn) (R : List Nat) (pos : Nat → VrPos) (p : BitVec 64) (τ : Loc.St) (n : Nat) : Bool :=
  match Loc.runFn W f (places pos) n τ with
  | .running _ (x :: _) τ' => !decide ((f.insn x).op = .loadraw ∨ (f.insn x).op = .storeraw) ||
    (match eval (view (places pos) τ') (f.insn x).addr, Flat.bytes (f.insn x).vrType with
      | some A, some m => (List.range m).all fun i => (spilledL f R pos).all fun y =>
          !decide ((A + (f.insn x).addrOff.signExtend 64 + BitVec.ofNat 64 i - slot p (pos y)).toNat < 8)
      | _, _ => true)
  | _ => true

theorem sane_of_check {W : World} {f : Fn} {R : List Nat} {pos : Nat → VrPos} {p : BitVec 64} {τ : Loc.St} (N : Nat)
    (h : (List.range N).all (saneB W f R pos p τ) = true) (hN : ∃ v τ', Loc.runFn W f (places pos) N τ = .done v τ') : Sane W f R pos p τ := by
  intro n b x rest τ' hr ho A m i hA hm hi ⟨y, hy, hlt⟩
  have hn : n < N := by
    apply Classical.byContradiction
    intro hn
    obtain ⟨v, τ2, e⟩ := hN
    obtain ⟨d, rfl⟩ := Nat.exists_eq_add_of_le (Nat.le_of_not_lt hn)
    have h2 := done_more d N _ _ _ e
    rw [show Loc.run W f (places pos) (N + d) f.entry (f.body f.entry) τ = _ from hr] at h2
    cases h2
  have h1 := List.all_eq_true.1 h n (List.mem_range.2 hn)
  unfold saneB at h1
  rw [hr] at h1
  simp only [hA, hm, Bool.or_eq_true, Bool.not_eq_true', decide_eq_false_iff_not, List.all_eq_true] at h1
  rcases h1 with h1 | h1
  · exact h1 ho
  · exact h1 i (List.mem_range.2 hi) y (mem_spilledL.2 hy) hlt

def doneB (r : Loc.Res) : Bool := match r with | .done _ _ => true | _ => false

theorem of_doneB {r : Loc.Res} (h : doneB r = true) : ∃ v τ, r = .done v τ := by
  cases r with
  | done v τ => exact ⟨v, τ, rfl⟩
  | _ => cases h

theorem ex_sane : Sane (exW 0x1000) exF exR exPos 0x1000 exτ := sane_of_check 24 (by decide +kernel) (of_doneB (by decide +kernel))

/-- The hypotheses of the theorem hold for the example; it returns 98 + 98, its argument twice. -/
example : ∃ bs is, flatten exF (dstOf exF) exPos exR = .ok bs ∧ Flat.body bs 0 = some is ∧ ∃ σ, Flat.runB exM bs (next exF) 24 0 is exσ = .done 196 σ := by
  obtain ⟨bs, is, h1, -, h2, h3⟩ := C55_flat exF_placed exF_flow
  refine ⟨bs, is, h1, h2, ?_⟩
  have h4 : (match Loc.runFn (exW 0x1000) exF (places exPos) 24 exτ with | .done v _ => decide (v = 196) | _ => false) = true := by decide +kernel
  rcases h3 exM (exW 0x1000) 0x1000 exτ exσ (exW_serves _) ex_mirror ex_sane 24 with h | h
  · rw [h] at h4
    cases h4
  · generalize Loc.runFn (exW 0x1000) exF (places exPos) 24 exτ = r at h h4
    generalize hq : Flat.runB exM bs (next exF) 24 exF.entry is exσ = q at h
    cases h with
    | done x τ σ hm =>
      rw [← of_decide_eq_true h4]
      exact ⟨σ, hq⟩
    | running => cases h4

/-! ## Violation -/

/-- An array whose address is returned. -/
def arrF : Fn := mkFn [([(11, { op := .allocarray, aux := 1, vrType := .t64 }), (12, mkRet (.insn 11))], [])]

def arrPos (x : Nat) : VrPos := if x = 11 then ⟨true, 0, -8⟩ else ⟨true, Fin.ofNat 11 x, 0⟩

/-- **C55** is violated for arrays that are used as values (`Placed.values`): the function returns the address of the array, the flattened program the first 8 bytes of the array, since an
operand on the stack is read from there. -/
theorem C55_array_violated :
    (match Loc.runFn ⟨exM, fun _ => 0x1000 - 8, fun _ => 8⟩ arrF (places arrPos) 5 exτ with | .done v _ => some v | _ => none) = some 0xff8 ∧
    (match flatten arrF (dstOf arrF) arrPos [0] with
      | .ok bs => (match Flat.runB exM bs (next arrF) 5 0 ((Flat.body bs 0).getD []) exσ with | .done v _ => some v | _ => none)
      | _ => none) = some 0 := by decide +kernel

end Verif.Flatten
