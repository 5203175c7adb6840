import Verif.Spec.Alloc
import Verif.Edit.Users
import Verif.Loc.Run
/-!
# Tests for needed values and places on concrete functions, for the examples
-/
namespace Verif.Cg
open Verif Verif.IR Verif.Edit Verif.Loc
open Verif.Norm (VrPos)

/-- The instructions among the operands. -/
def ids (vs : List Val) : List Nat := vs.filterMap (fun v => match v with | .insn y => some y | _ => none)

theorem mem_ids {vs : List Val} {y : Nat} : y ∈ ids vs ↔ Val.insn y ∈ vs := by
  simp only [ids, List.mem_filterMap]
  constructor
  · rintro ⟨v, h1, h2⟩
    cases v with
    | insn z => cases h2; exact h1
    | _ => cases h2
  · exact fun h => ⟨_, h, rfl⟩

/-- The operands of the phis of `c` for the block `b`. -/
def phiIds (f : Fn) (b c : Nat) : List Nat :=
  ((f.body c).filter (fun p => (f.insn p).op == .phi)).flatMap (fun p => ids (((f.insn p).phi.filter (fun o => o.1 == b)).map (·.2)))

theorem mem_phiIds {f : Fn} {b c p y : Nat} (hp : p ∈ f.body c) (h : (f.insn p).op = .phi) (ho : (b, Val.insn y) ∈ (f.insn p).phi) :
    y ∈ phiIds f b c := by
  refine List.mem_flatMap.2 ⟨p, List.mem_filter.2 ⟨hp, by simp [h]⟩, mem_ids.2 (List.mem_map.2 ⟨_, List.mem_filter.2 ⟨ho, ?_⟩, rfl⟩)⟩
  simp

/-- The values needed before `rest`, if those of `E c` are needed at the start of the block `c`. -/
def need (f : Fn) (dst : Nat → Option Nat) (E : Nat → List Nat) (b : Nat) : List Nat → List Nat
  | [] => (f.succs b).flatMap (fun c => E c ++ phiIds f b c)
  | s :: rest => (if (f.insn s).op = .phi then [] else ids (operands (f.insn s))) ++
      (need f dst E b rest).filter (fun v => decide (dst s ≠ some v))

theorem need_of {f : Fn} {dst : Nat → Option Nat} {E : Nat → List Nat} {R : List Nat} (hR : ∀ a ∈ R, ∀ b ∈ f.succs a, b ∈ R)
    (hE : ∀ b ∈ R, ∀ v ∈ need f dst E b (f.body b), v ∈ E b) {v b : Nat} {rest : List Nat} (h : IR.Needed f dst v b rest) :
    b ∈ R → v ∈ need f dst E b rest := by
  induction h with
  | use hp hr =>
    intro _
    refine List.mem_append_left _ ?_
    rw [if_neg hp, mem_ids, ← List.count_pos_iff, ← refs_eq]
    exact hr
  | skip hd _ ih => exact fun hb => List.mem_append_right _ (List.mem_filter.2 ⟨ih hb, by simpa using hd⟩)
  | phi hc hp hop ho => exact fun _ => List.mem_flatMap.2 ⟨_, hc, List.mem_append_right _ (mem_phiIds hp hop ho)⟩
  | jump hc _ ih =>
    intro hb
    have hcR := hR _ hb _ hc
    exact List.mem_flatMap.2 ⟨_, hc, List.mem_append_left _ (hE _ hcR _ (ih hcR))⟩

/-- The places needed before `rest`, if those of `E c` are needed at the start of the code of the block `c`. -/
def needL (f : Fn) (l : Nat → Nat) (E : Nat → List Nat) (b : Nat) : List Nat → List Nat
  | [] => (f.succs b).flatMap (fun c => (E c).filter (fun q => decide (∀ x ∈ phisOf f c, q ≠ l x)) ++ (phiIds f b c).map l)
  | s :: rest => reads l (f.insn s) ++ (needL f l E b rest).filter (fun q => decide (q ∉ writes l s (f.insn s)))

theorem needL_of {f : Fn} {l : Nat → Nat} {E : Nat → List Nat} {R : List Nat} (hR : ∀ a ∈ R, ∀ b ∈ f.succs a, b ∈ R)
    (hE : ∀ b ∈ R, ∀ q ∈ needL f l E b (codeOf f b), q ∈ E b) {q b : Nat} {rest : List Nat} (h : Loc.Needed f l q b rest) :
    b ∈ R → q ∈ needL f l E b rest := by
  induction h with
  | read hr => exact fun _ => List.mem_append_left _ hr
  | skip hw _ ih => exact fun hb => List.mem_append_right _ (List.mem_filter.2 ⟨ih hb, by simpa using hw⟩)
  | @phi b c x y hc hx ho hq =>
    intro _
    refine List.mem_flatMap.2 ⟨_, hc, List.mem_append_right _ (List.mem_map.2 ⟨y, ?_, hq.symm⟩)⟩
    exact mem_phiIds ((List.takeWhile_prefix _).subset hx) (phisOf_phi hx) ho
  | @edge b c hc hx _ ih =>
    intro hb
    have hcR := hR _ hb _ hc
    refine List.mem_flatMap.2 ⟨_, hc, List.mem_append_left _ (List.mem_filter.2 ⟨hE _ hcR _ (ih hcR), ?_⟩)⟩
    simpa using hx

/-- All ways to cut a list at an element. -/
def cuts : List Nat → List (List Nat × Nat × List Nat)
  | [] => []
  | x :: xs => ([], x, xs) :: (cuts xs).map (fun c => (x :: c.1, c.2))

theorem mem_cuts : ∀ {xs pre : List Nat} {x : Nat} {rest : List Nat}, xs = pre ++ x :: rest → (pre, x, rest) ∈ cuts xs
  | _, [], _, _, rfl => List.mem_cons_self ..
  | _, y :: pre, x, rest, rfl => by
    refine List.mem_cons_of_mem _ (List.mem_map.2 ⟨(pre, x, rest), mem_cuts rfl, rfl⟩)

/-- A test for `AllocReady`; `E` are the values needed at the start of the blocks, `EL` the places at the start of their code. -/
def readyB (f : Fn) (R : List Nat) (dst : Nat → Option Nat) (pos : Nat → VrPos) (E EL : Nat → List Nat) : Bool :=
  R.all (fun b => decide (b ∈ f.allBbs)) && R.all (fun b => (f.succs b).all (fun c => decide (c ∈ R))) && decide (f.entry ∈ R) &&
  R.all (fun b => (codeOf f b).all (fun x => decide ((f.insn x).op ≠ .phi))) && decide (phisOf f f.entry = []) &&
  R.all (fun b => (f.body b).all (fun x => decide (dst x = if hasResult (f.insn x).op then some x else none))) &&
  R.all (fun b => (need f dst E b (f.body b)).all (fun v => decide (v ∈ E b))) &&
  (need f dst E f.entry (f.body f.entry)).all (fun v => (pos v).allocated) &&
  R.all (fun b => (needL f (places pos) EL b (codeOf f b)).all (fun q => decide (q ∈ EL b))) &&
  R.all (fun b => (cuts (f.body b)).all (fun c => decide ((f.insn c.2.1).op = .alloc → (pos c.2.1).allocated = false →
    virt c.2.1 ∉ needL f (places pos) EL b c.2.2))) &&
  R.all (fun b => (f.body b).all (fun x => !decide ((f.insn x).op = .store) ||
    match (f.insn x).vals.head? with | some (.insn a) => decide (10 < places pos a) | _ => true))

theorem ready_of_check {f : Fn} {R : List Nat} {dst : Nat → Option Nat} {pos : Nat → VrPos} {E EL : Nat → List Nat}
    (h : readyB f R dst pos E EL = true) (hc : ∀ b ∈ R, Conn f b) : AllocReady f R dst pos := by
  simp only [readyB, Bool.and_eq_true, List.all_eq_true, decide_eq_true_eq] at h
  obtain ⟨⟨⟨⟨⟨⟨⟨⟨⟨⟨h1, h2⟩, h3⟩, h4⟩, h5⟩, h6⟩, h7⟩, h8⟩, h9⟩, h10⟩, h11⟩ := h
  refine ⟨fun b hb => ⟨h1 b hb, hc b hb⟩, h4, h5, h6, ?_, ?_, ?_⟩
  · intro v hv hn
    have := h8 v (need_of h2 h7 hn h3)
    rw [hv] at this; cases this
  · intro b hb pre a rest e hop hpa hn
    exact h10 b hb _ (mem_cuts e) hop hpa (needL_of h2 h9 hn hb)
  · intro b hb x hx hop a ha
    have := h11 b hb x hx
    rw [ha] at this
    simpa [hop] using this

/-- A test for `RegsKept`. -/
def keptB (f : Fn) (R : List Nat) (l k : Nat → Nat) (EL : Nat → List Nat) (ys : List Nat) : Bool :=
  R.all (fun b => (f.succs b).all (fun c => decide (c ∈ R))) &&
  R.all (fun b => (needL f l EL b (codeOf f b)).all (fun q => decide (q ∈ EL b))) &&
  R.all (fun b => (cuts (f.body b)).all (fun c => (writes l c.2.1 (f.insn c.2.1)).all (fun w =>
    decide (w ≤ 10) || ys.any (fun y => decide (l y = w) && (decide (10 ≤ k y) || decide (k y ∉ needL f l EL b c.2.2)))))) &&
  R.all (fun b => (phisOf f b).all (fun x => decide (10 ≤ k x) || decide (k x ∉ needL f l EL b (codeOf f b))))

theorem kept_of_check {f : Fn} {R : List Nat} {l k : Nat → Nat} {EL : Nat → List Nat} {ys : List Nat}
    (h : keptB f R l k EL ys = true) (hl : ∀ x y, 10 < l x → l x = l y → x = y) : RegsKept f R l k := by
  simp only [keptB, Bool.and_eq_true, List.all_eq_true, decide_eq_true_eq, Bool.or_eq_true] at h
  obtain ⟨⟨⟨h1, h2⟩, h3⟩, h4⟩ := h
  refine ⟨?_, ?_⟩
  · intro b hb pre x rest e r hr hn y hy hly hk
    exfalso
    have := h3 b hb _ (mem_cuts e) (l y) hy
    simp only [Bool.or_eq_true, decide_eq_true_eq, List.any_eq_true, Bool.and_eq_true] at this
    rcases this with h | ⟨z, _, hz, hz'⟩
    · omega
    · have := hl y z hly hz.symm
      subst this
      rw [hk] at hz'
      rcases hz' with hz' | hz'
      · omega
      · exact hz' (needL_of h1 h2 hn hb)
  · intro b hb r hr hn x hx _ hk
    have := h4 b hb x hx
    rw [hk] at this
    rcases this with this | this
    · omega
    · exact this (needL_of h1 h2 hn hb)

end Verif.Cg
