import Verif.Spec.Helpers
import Verif.Pipe.Examples
/-!
# C68: calls have the arguments the helper takes
-/
namespace Verif.Pipe
open Verif Verif.Bpf Verif.IR

/-- The table, entry by entry: the table has an entry for exactly the helpers 0 to 211; the number is that of the parameters. -/
theorem table_all : protos.length = 212 ∧ Lift.helperArgs.length = 212 ∧
    ∀ k < 212, k ∉ hidden → k ≠ 6 → Lift.helperArgs[k]? = (protos[k]?).map fun p => (p.2.length : Int) := by decide +kernel

/-- The helpers with any number of arguments, and those for which the table counts an argument of the verifier. -/
theorem table_other : (∀ p ∈ protos, "..." ∈ p.2 ↔ p.1 = "trace_printk") ∧ protos[6]?.map (·.1) = some "trace_printk" ∧ Lift.helperArgs[6]? = some (-1) ∧
    ∀ k ∈ hidden, Lift.helperArgs[k]? = (protos[k]?).map fun p => (p.2.length + 1 : Int) := by decide +kernel

/-- C68 (partial): in a lifted function every call of a helper has as many operands as the helper has parameters (they are the values of r1, r2, ...: C50).
Calls of helpers that do not exist are refused: C61.  Not covered: `trace_printk`, for which the number is not fixed (see `C50_violated_printk`), and the five
helpers with an argument of the verifier (see `C68_violated_storage`). -/
theorem C68_calls_partial {P : List Slot} (hw : WellShaped P) (hc : Closed P) (hlen : P.length ≤ 32768) (hu : ∀ sl ∈ P, ∀ i, decode sl = some i → Usual i)
    {n : Nat} {f : Fn} (hf : Lift.lift n P = .ok f) {b x : Nat} (hb : b ∈ f.allBbs) (hx : x ∈ f.body b) (ho : (f.insn x).op = .call)
    (hh : (f.insn x).aux.toNat ∉ hidden) {name : String} {ps : List String} (hp : protos[(f.insn x).aux.toNat]? = some (name, ps)) (hv : "..." ∉ ps) :
    (f.insn x).vals.length = ps.length := by
  obtain ⟨g', _, _, h3⟩ := lift_code hw hc hlen hu hf
  have h6 : (f.insn x).aux ≠ 6 := by
    intro e
    rw [e] at hp
    have : "..." ∈ ps := by
      have h : protos[(6 : BitVec 32).toNat]? = some ("trace_printk", ["const char *fmt", "u32 fmt_size", "..."]) := by decide +kernel
      rw [h] at hp
      cases hp
      decide
    exact hv this
  have e := ((h3.insn x ⟨b, hb, hx⟩).call ho h6).1
  have hlt : (f.insn x).aux.toNat < 212 := by
    obtain ⟨h, _⟩ := List.getElem?_eq_some_iff.1 hp
    have := table_all.1
    omega
  have ht := table_all.2.2 _ hlt hh (fun h => h6 (BitVec.eq_of_toNat_eq (by rw [h]; rfl)))
  rw [hp] at ht
  rw [show (f.insn x).vals.length = ((withSuccs f g').insn x).vals.length from rfl, e]
  show Lift.arity (f.insn x).aux = _
  unfold Lift.arity
  rw [ht]
  simp

/-- The hypotheses hold for `exL`, whose lifted function calls helper 1, `map_lookup_elem`: its call has two operands. -/
example : Fair Lift.exL ∧ Cg.onOk (Lift.lift 100 Lift.exL) (fun f => f.allBbs.any fun b => (f.body b).any fun x =>
    decide ((f.insn x).op = .call ∧ (f.insn x).aux = 1 ∧ (f.insn x).vals.length = 2)) = true ∧
    protos[1]? = some ("map_lookup_elem", ["struct bpf_map *map", "const void *key"]) ∧ 1 ∉ hidden :=
  ⟨fair_of_check (by decide +kernel), by decide +kernel, by decide +kernel, by decide⟩

/-! ## Where the code breaks C68 -/

/-- Twice `r2 = 5; r1 = 8; r3 = 0; r4 = 1; call sk_storage_get`: four arguments, none of them in r5. -/
def storageP : List Slot :=
  [⟨0xb7, 2, 0, 0, 5⟩, ⟨0xb7, 1, 0, 0, 8⟩, ⟨0xb7, 3, 0, 0, 0⟩, ⟨0xb7, 4, 0, 0, 1⟩, ⟨0x85, 0, 0, 0, 107⟩,
   ⟨0xb7, 2, 0, 0, 5⟩, ⟨0xb7, 1, 0, 0, 8⟩, ⟨0xb7, 3, 0, 0, 0⟩, ⟨0xb7, 4, 0, 0, 1⟩, ⟨0x85, 0, 0, 0, 107⟩, ⟨0x95, 0, 0, 0, 0⟩]

/-- `sk_storage_get` has four parameters, but the table says five: r5 becomes an argument.  The program that comes out starts with `r6 = r5`, although r5 has no value
there (only r1 and r10 have one when the kernel starts a program), and the program that went in does not use r5 anywhere. -/
theorem C68_violated_storage : protos[107]? = some ("sk_storage_get", ["struct bpf_map *map", "void *sk", "void *value", "u64 flags"]) ∧
    (∀ s ∈ storageP, s.dst ≠ 5 ∧ s.src ≠ 5) ∧ Cg.onOk (Lift.lift 100 storageP) (fun f => (f.allBbs.flatMap f.body).all fun x => decide ((f.insn x).op = .call → (f.insn x).vals.length = 5 ∧
      (f.insn x).vals[4]? = some (.insn 5))) = true ∧
    Cg.onOk (autorun 100 100 true storageP) (fun A => decide (A.res.code[0]?.bind decode = some (.alu true .mov 6 (.reg 5)))) = true := by
  decide +kernel

end Verif.Pipe
