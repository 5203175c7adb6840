import Verif.Lift.Reject
import Verif.Lift.Props
/-!
# C61: which programs the lifter accepts
-/
namespace Verif.Lift
open Verif Verif.Bpf Verif.IR Verif.GenBB
set_option linter.unusedSimpArgs false

variable {P : List Slot}

theorem fault_map (hl : Legal P) (h : Unknown P ∨ ReadsUnset P) : Fault (P.map zeroJump) := by
  have key : ∀ (p : Nat) (s : Slot) (i : Instr), P[p]? = some s → decode s = some i → ¬ Pointless i → decode (zeroJump s) = some i := by
    intro p s i hs hd hp
    rcases decode_zeroJump hl hs with e | ⟨_, w, c, d, src, e⟩
    · rw [e, hd]
    · rw [hd] at e; cases e; exact absurd rfl hp
  rcases h with ⟨s, hs, i, h1, h2, h3⟩ | ⟨p, s, i, r, hs, h1, h2, h3, h4⟩
  · obtain ⟨p, hp⟩ := List.getElem?_of_mem hs
    exact .inl ⟨_, List.mem_of_getElem? (get_zero hp), i, key p s i hp h1 h2, h3⟩
  · exact .inr ⟨p, _, i, r, get_zero hs, key p s i hs h1 h2, h3, unset_map hl h4⟩

/-- C61, first part.  On every well-shaped program of at most 32768 slots from which control never runs off the end and which uses r0 to r10 only, the lifter ends (more fuel
than some number changes nothing about that), without undefined behaviour and without giving up on an assertion.  If it reports an error, the program has an instruction that is not supported, or one
that reads a register which some way from the start has not written. -/
theorem C61_ends (hw : WellShaped P) (hc : Closed P) (hlen : P.length ≤ 32768) (hr : KnownRegs P) :
    ∃ n0, ∀ n, n0 ≤ n → (∃ f, lift n P = .ok f) ∨ (lift n P = .err ∧ (Unknown P ∨ ReadsUnset P)) := lift_total hw hc hlen hr

/-- C61, second part: a program that is lifted has only supported instructions and reads no register before it is written (conditional jumps to the next
slot do not count), unless it calls helper 6, whose number of arguments is not fixed. -/
theorem C61_accepted (hw : WellShaped P) (hc : Closed P) (hlen : P.length ≤ 32768) (h6 : ∀ sl ∈ P, decode sl ≠ some (.call 6)) {n : Nat} {f : Fn} (hf : lift n P = .ok f) :
    ¬ Unknown P ∧ ¬ ReadsUnset P := by
  have hl := hw.legal
  obtain ⟨C, h1, hG⟩ := graph_of (wellShaped_zero hw) (map_idem P) (by simpa using hlen)
  rw [genBB_idem] at h1
  unfold lift at hf
  rw [h1, Out.ok_bind] at hf
  obtain ⟨s, h2, _⟩ := Out.bind_eq_ok.1 hf
  obtain ⟨g, hF⟩ := hG.fin h2
  have h6' : ∀ sl ∈ P.map zeroJump, decode sl ≠ some (.call 6) := by
    intro sl hsl he
    obtain ⟨p, hp⟩ := List.getElem?_of_mem hsl
    obtain ⟨s', h3, rfl⟩ := get_map hp
    rcases decode_zeroJump hl h3 with e | ⟨e, _⟩
    · exact h6 s' (List.mem_of_getElem? h3) (by rw [← e]; exact he)
    · rw [e] at he; cases he
  have := no_fault hG (closed_zero' hl hc) hF h6'
  exact ⟨fun h => this (fault_map hl (.inl h)), fun h => this (fault_map hl (.inr h))⟩

/-- C61: the lifter accepts exactly the programs whose instructions are supported and that write every register before they read it, on all ways. -/
theorem C61_exact (hw : WellShaped P) (hc : Closed P) (hlen : P.length ≤ 32768) (hr : KnownRegs P) (h6 : ∀ sl ∈ P, decode sl ≠ some (.call 6)) :
    ∃ n0, ∀ n, n0 ≤ n → ((∃ f, lift n P = .ok f) ↔ ¬ Unknown P ∧ ¬ ReadsUnset P) ∧ (lift n P = .err ↔ Unknown P ∨ ReadsUnset P) := by
  obtain ⟨n0, h⟩ := C61_ends hw hc hlen hr
  refine ⟨n0, fun n hn => ⟨⟨fun ⟨f, hf⟩ => C61_accepted hw hc hlen h6 hf, fun ⟨h1, h2⟩ => ?_⟩, fun he => ?_, fun hx => ?_⟩⟩
  · rcases h n hn with h | ⟨_, h⟩
    · exact h
    · exact (h.elim h1 h2).elim
  · rcases h n hn with ⟨f, h⟩ | ⟨_, h⟩
    · rw [he] at h; cases h
    · exact h
  · rcases h n hn with ⟨f, h⟩ | ⟨h, _⟩
    · have := C61_accepted hw hc hlen h6 h
      exact (hx.elim this.1 this.2).elim
    · exact h

/-! ## Examples -/

def knownB (P : List Slot) : Bool := P.all fun s => match decode s with | some i => (reads i).all (· ≤ 10) && (match writes i with | some d => decide (d ≤ 10) | none => true) | none => true

theorem known_of_check (h : knownB P = true) : KnownRegs P := by
  intro s hs i hd
  have := List.all_eq_true.1 h s hs
  rw [hd] at this
  simp only [Bool.and_eq_true, List.all_eq_true, decide_eq_true_eq] at this
  refine ⟨this.1, fun d e => ?_⟩
  have h2 := this.2
  rw [e] at h2
  simpa using h2

def supB : Instr → Bool
  | .ldimm _ k => decide (k.toNat ≤ 6)
  | .jcc _ c _ _ _ => decide (c ≠ .set)
  | .call fid => match helperArgs[fid.toNat]? with | some k => decide (0 ≤ k) | none => false
  | _ => true

theorem sup_of_check {i : Instr} (h : supB i = true) : Supported i := by
  cases i with
  | ldimm d k => simpa [supB, Supported] using h
  | jcc w c d src off => simpa [supB, Supported] using h
  | call fid =>
    simp only [supB] at h
    split at h
    · rename_i k e; exact ⟨k, e, by simpa using h⟩
    · cases h
  | _ => trivial

/-- `K` lists for each slot registers that have a value there. -/
def initB (P : List Slot) (K : List (List Nat)) : Bool :=
  ((K.getD 0 []).all fun r => decide (1 ≤ r ∧ r ≤ 5 ∨ r = 10)) &&
  (List.range P.length).all fun p => match P[p]? with
    | some s =>
      let w := match decode s with | some i => writes i | none => none
      (match decode s with | some i => (reads i).all fun r => (K.getD p []).contains r | none => true) &&
      (flow P p).all fun q => (K.getD q.toNat []).all fun r => (K.getD p []).contains r || decide (w = some r)
    | none => true

theorem init_of_check {K : List (List Nat)} (h : initB P K = true) : ¬ ReadsUnset P := by
  simp only [initB, Bool.and_eq_true, List.all_eq_true, decide_eq_true_eq, List.mem_range] at h
  obtain ⟨h0, h1⟩ := h
  have key : ∀ r p, Unset P r p → r ∉ K.getD p [] := by
    intro r p hu
    induction hu with
    | first _ a b => intro hm; rcases h0 r hm with h | h; exact a h; exact b h
    | @next p q s _ hs hn hf hq ih =>
      intro hm
      have hp : p < P.length := lt_of_get hs
      have := h1 p hp
      rw [hs] at this
      simp only [Bool.and_eq_true, List.all_eq_true, Bool.or_eq_true, decide_eq_true_eq, List.contains_eq_mem] at this
      rcases this.2 (q : Int) hf r hm with e | e
      · exact ih e
      · cases hd : decode s with
        | none => rw [hd] at e; cases e
        | some i => rw [hd] at e; exact hn i hd e
  rintro ⟨p, s, i, r, hs, hd, _, hr, hu⟩
  have := h1 p (lt_of_get hs)
  rw [hs] at this
  simp only [Bool.and_eq_true, hd, List.all_eq_true, List.contains_eq_mem, decide_eq_true_eq] at this
  exact key r p hu (this.1 r hr)

theorem unknown_of_check (h : (P.all fun s => match decode s with | some i => supB i | none => true) = true) : ¬ Unknown P := by
  rintro ⟨s, hs, i, hd, _, hn⟩
  have := List.all_eq_true.1 h s hs
  rw [hd] at this
  exact hn (sup_of_check this)

/-- A program with a loop and a call: registers that have a value at each slot. -/
def exLK : List (List Nat) := [[1, 10], [1, 6, 10], [0, 1, 6, 10], [0, 1, 6, 10], [0, 1, 6, 10], [0, 1, 6, 10], [0, 1, 10], [1], [1, 2], [1, 2], [0]]

/-- It meets the conditions and is accepted. -/
example : WellShaped exL ∧ KnownRegs exL ∧ (∀ sl ∈ exL, decode sl ≠ some (.call 6)) ∧ ¬ Unknown exL ∧ ¬ ReadsUnset exL ∧ (lift 100 exL).isOk = true :=
  ⟨wsB_sound (n := 12) (by decide +kernel), known_of_check (by decide +kernel), by decide +kernel, unknown_of_check (by decide +kernel), init_of_check (K := exLK) (by decide +kernel), by decide +kernel⟩

/-- `if r1 == 0 goto +1; r6 = 1; r0 = r6; exit`: one way leaves r6 unwritten. -/
def exHalf : List Slot := [⟨0x15, 1, 0, 1, 0⟩, ⟨0xb7, 6, 0, 0, 1⟩, ⟨0xbf, 0, 6, 0, 0⟩, ⟨0x95, 0, 0, 0, 0⟩]

/-- It is refused, and has to be. -/
example : WellShaped exHalf ∧ KnownRegs exHalf ∧ ReadsUnset exHalf ∧ lift 100 exHalf = .err := by
  refine ⟨wsB_sound (n := 5) (by decide +kernel), known_of_check (by decide +kernel), ?_, ?_⟩
  · refine ⟨2, ⟨0xbf, 0, 6, 0, 0⟩, .alu true .mov 0 (.reg 6), 6, rfl, by decide +kernel, id, by decide +kernel, ?_⟩
    refine .next (s := ⟨0x15, 1, 0, 1, 0⟩) (.first (by decide) (by decide) (by decide)) rfl ?_ (by decide +kernel) (by decide)
    intro i hi
    have : decode ⟨0x15, 1, 0, 1, 0⟩ = some (.jcc true .eq 1 (.imm 0) 1) := by decide +kernel
    rw [this] at hi; cases hi; simp [writes]
  · have : (match lift 100 exHalf with | .err => true | _ => false) = true := by decide +kernel
    split at this
    · assumption
    · cases this

/-- A conditional jump to the next slot does not count: `if r7 == 0 goto +0; r0 = 0; exit` is accepted. -/
example : (lift 100 [⟨0x15, 7, 0, 0, 0⟩, ⟨0xb7, 0, 0, 0, 0⟩, ⟨0x95, 0, 0, 0, 0⟩]).isOk = true := by decide +kernel

end Verif.Lift
