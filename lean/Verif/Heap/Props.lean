import Verif.Heap.Steps
/-!
# C78: memory of functions

However a function is edited, nothing is freed twice, and `bpf_ir_free_function` frees all memory of the function exactly once, except for the blocks that were not
found reachable and the `struct ir_function` itself.  Memory is lost on the way only when a phi is erased.
-/
namespace Verif.Heap
open Verif

theorem Sound.selfs {x : List Ptr} {s : St} (k : Sound x s) : (s.f.blocks.map (·.self)).Nodup := by
  have h1 : (s.f.own ++ x).Nodup := k.live.nodup_iff.mp k.once
  have h2 : (s.f.blocks.flatMap Block.own).Nodup := by
    refine List.Nodup.sublist ?_ h1
    unfold Fn.own parts
    exact ((((List.sublist_append_right _ _).trans (List.sublist_append_left _ _)).trans (List.sublist_append_right _ _))).trans (List.sublist_append_left _ _)
  refine List.Nodup.sublist ?_ h2
  generalize s.f.blocks = bs
  induction bs with
  | nil => exact .refl _
  | cons b bs ih =>
    rw [List.map_cons, List.flatMap_cons]
    unfold Block.own
    exact (ih.trans (List.sublist_append_right _ _)).cons_cons _

/-- `bpf_ir_free_function` works in every sound state: nothing is freed twice or without being allocated, the memory of others stays, and what stays of the function is
`Fn.rest`: the `struct ir_function` and the blocks that are not in `reachable_bbs`, with their instructions. -/
theorem C78_free_partial {x : List Ptr} {s : St} (k : Sound x s) : ∃ h, freeFunction s = .ok h ∧ h.live.Perm (s.f.rest ++ x) := by
  have hsure : Sure (freeFunction s) (fun h => Good h (s.f.rest ++ x)) := by
    unfold freeFunction
    refine (freeBlocks_sure k.good k.reach k.distinct k.selfs).bind ?_
    rintro s1 ⟨g1, e1, e2, e3, e4, e5, e6⟩
    have g2 : Good s1.h ((s1.f.insns.filter Insn.isFix).flatMap Insn.own ++ (s1.f.all.own ++ (s1.f.reach.own ++ (s1.f.ends.own ++ (s.f.rest ++ x))))) := by
      refine g1.perm fun a => ?_
      have h1 := count_filter (is := s1.f.insns) Insn.isFix a
      have h2 := count_blocks e2 a
      have h3 : s1.f.insns.filter (fun i => !i.isFix) = s.f.insns.filter (Insn.lost s.f) := by
        rw [e1, List.filter_filter]
        congr 1
        funext i
        unfold Insn.lost Insn.isFix Insn.inAny Insn.isIn
        cases e : i.home with
        | block b =>
          simp only [Bool.not_false, Bool.true_and]
          congr 1
          rw [Bool.eq_iff_iff]
          simp only [List.any_eq_true, List.contains_iff_mem, beq_iff_eq, Home.block.injEq]
          constructor
          · rintro ⟨c, hc, rfl⟩; exact hc
          · intro hb; exact ⟨b, hb, rfl⟩
        | arg n => rfl
        | sp => rfl
      rw [h3] at h1
      simp only [Fn.own, Fn.rest, parts, List.count_append, e3] at h1 h2 ⊢
      omega
    exact (freeInsns_sure g2).bind fun h3 g3 => g3.freeArr.bind fun h4 g4 => g4.freeArr.bind fun h5 g5 => g5.freeArr
  obtain ⟨h, e, g⟩ := hsure
  exact ⟨h, e, g.live⟩

/-- Any history of edits, and freeing after it, frees nothing twice, and leaves the memory of others alone. -/
theorem C78_edits {x : List Ptr} {s : St} (k : Sound x s) (es : List Edit) :
    run es s ≠ .ub ∧ ∀ s', run es s = .ok s' → ∃ h y, freeFunction s' = .ok h ∧ h.live.Perm (y ++ x) := by
  have hr := run_fine (es := es) k
  refine ⟨hr.1, fun s' e => ?_⟩
  obtain ⟨y, k', _⟩ := hr.2 s' e
  obtain ⟨h, e', hp⟩ := C78_free_partial k'
  exact ⟨h, s'.f.rest ++ y, e', by rw [List.append_assoc]; exact hp⟩

/-- If no phi was erased and all blocks were found, then everything but the `struct ir_function` is freed. -/
theorem C78_all_partial {x : List Ptr} {s s' : St} (k : Sound x s) {es : List Edit} (hs : SparesAll es s) (e : run es s = .ok s')
    (hall : ∀ b ∈ s'.f.blocks, b.self ∈ s'.f.reach.elems) : ∃ h, freeFunction s' = .ok h ∧ h.live.Perm (s'.f.self :: x) := by
  obtain ⟨y, k', hy⟩ := (run_fine (es := es) k).2 s' e
  obtain rfl := hy hs
  obtain ⟨h, e', hp⟩ := C78_free_partial k'
  refine ⟨h, e', ?_⟩
  have e1 : s'.f.insns.filter (Insn.lost s'.f) = [] := by
    rw [List.filter_eq_nil_iff]
    intro i hi hl
    unfold Insn.lost at hl
    cases e2 : i.home with
    | block b =>
      rw [e2] at hl
      obtain ⟨z, hz, rfl⟩ := k'.home i hi b e2
      simp [hall z hz] at hl
    | arg n => rw [e2] at hl; cases hl
    | sp => rw [e2] at hl; cases hl
  have e3 : s'.f.blocks.filter (fun b => !s'.f.reach.elems.contains b.self) = [] := by
    rw [List.filter_eq_nil_iff]
    intro b hb
    simp [hall b hb]
  unfold Fn.rest parts at hp
  rw [e1, e3] at hp
  exact hp

/-- If no phi was erased, what is left are the blocks that were not found and the `struct ir_function`. -/
theorem C78_left {x : List Ptr} {s s' : St} (k : Sound x s) {es : List Edit} (hs : SparesAll es s) (e : run es s = .ok s') :
    ∃ h, freeFunction s' = .ok h ∧ h.live.Perm (s'.f.rest ++ x) := by
  obtain ⟨y, k', hy⟩ := (run_fine (es := es) k).2 s' e
  obtain rfl := hy hs
  exact C78_free_partial k'

/-! ## Cases -/

/-- A function without blocks: five arguments, the stack pointer and the function itself. -/
def start : St :=
  { h := ⟨[0, 1, 2, 3, 4, 5, 6], 7⟩
    f := { self := 6
           insns := [⟨0, .arg 0, .init, [], none⟩, ⟨1, .arg 1, .init, [], none⟩, ⟨2, .arg 2, .init, [], none⟩, ⟨3, .arg 3, .init, [], none⟩, ⟨4, .arg 4, .init, [], none⟩, ⟨5, .sp, .init, [], none⟩]
           blocks := []
           all := .init
           reach := .init
           ends := .init } }

theorem start_sound : Sound [] start where
  live := by decide +kernel
  once := by decide
  below := by decide
  home := by
    intro i hi b e
    simp only [start, List.mem_cons, List.not_mem_nil, or_false] at hi
    rcases hi with rfl | rfl | rfl | rfl | rfl | rfl <;> cases e
  reach := by intro b hb; cases hb
  distinct := by decide

/-- A block 7 with a phi 9 that gets an operand, an instruction 12 that uses it and the argument, and another one 14 that replaces it. -/
def editsA : List Edit :=
  [.block, .insn 7 [] true, .operand 9 (some 0), .insn 7 [some 9, some 0] false, .insn 7 [some 9] false, .replace 9 (some 0), .process [7] [7] [7]]

/-- The blocks are found, and only the function itself stays. -/
example : ∃ s', run editsA start = .ok s' ∧ (∀ b ∈ s'.f.blocks, b.self ∈ s'.f.reach.elems) ∧ ∃ h, freeFunction s' = .ok h ∧ h.live = [6] := by
  refine ⟨_, rfl, by decide +kernel, _, rfl, by decide +kernel⟩

example : SparesAll editsA start := by
  unfold editsA
  simp [SparesAll, Spares]

/-- Splitting a block and an error block, everything found. -/
def editsB : List Edit :=
  [.block, .insn 7 [some 0] false, .insn 7 [some 9] false, .error 7 [11], .process [7] [7, 13, 16] [13, 16]]

example : ∃ s', run editsB start = .ok s' ∧ s'.f.blocks.length = 3 ∧ ∃ h, freeFunction s' = .ok h ∧ h.live = [6] := by
  refine ⟨_, rfl, by decide +kernel, _, rfl, by decide +kernel⟩

/-- An erased phi loses the array of its operands: after the phi was replaced and erased, and all blocks were found, freeing leaves it. -/
theorem C78_violated_phi : ∃ es s' h, run es start = .ok s' ∧ (∀ b ∈ s'.f.blocks, b.self ∈ s'.f.reach.elems) ∧ freeFunction s' = .ok h ∧ h.live ≠ [s'.f.self] ∧ h.live.length = 2 := by
  refine ⟨[.block, .insn 7 [] true, .operand 9 (some 0), .replace 9 (some 0), .erase 9, .process [7] [7] [7]], _, _, rfl, by decide +kernel, rfl, by decide +kernel, by decide +kernel⟩

/-- A block that is not reachable is never freed. -/
theorem C78_violated_unreachable : ∃ es s' h, run es start = .ok s' ∧ SparesAll es start ∧ freeFunction s' = .ok h ∧ h.live.length = 3 := by
  refine ⟨[.block, .block, .insn 9 [] false, .process [7] [7] [7]], _, _, rfl, ?_, rfl, by decide +kernel⟩
  simp [SparesAll, Spares]

/-- Even when all goes well, the `struct ir_function` stays allocated. -/
theorem C78_violated_function : ∃ es s' h, run es start = .ok s' ∧ SparesAll es start ∧ (∀ b ∈ s'.f.blocks, b.self ∈ s'.f.reach.elems) ∧ freeFunction s' = .ok h ∧ s'.f.self ∈ h.live := by
  refine ⟨[.block, .process [7] [7] [7]], _, _, rfl, ?_, by decide +kernel, rfl, by decide +kernel⟩
  simp [SparesAll, Spares]

end Verif.Heap
