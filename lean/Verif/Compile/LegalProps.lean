import Verif.Compile.Legal
import Verif.Emit.Props
/-!
# C80: what is emitted is a program of whole instructions

The statement uses `Bpf.decode`, `Bpf.flow` and the conditions of `Verif/Spec/Cfg.lean` and `Verif/Spec/Formed.lean`, which say nothing about how the code was made.
-/
namespace Verif.Compile
open Verif.Norm Verif.Flat Verif.Emit Verif.Bpf

/-- **C80** for emission.  Whatever blocks `bpf_ir_cg_norm` gets: if it ends without an error, no load has a constant as its address, and the code has at most 32768 slots, then every slot is an
instruction or the second half of a wide load, all wide loads are complete, and all jumps lead to the start of an instruction (or to the end of the program).  If the last block ends with a
return or a jump, no instruction lets control leave the program otherwise than by `exit`. -/
theorem C80_emitted {bs : List FBlock} {code : List Slot} (h : Emit.emit bs = .ok code)
    (hw : ∀ b ∈ bs, ∀ i ∈ b.insns, i.op = .loadraw → ∀ k c ct d, i.addr ≠ .const k c ct d) (hlen : code.length ≤ 32768) :
    Formed code ∧
    ((∃ A b xs i, bs = A ++ [b] ∧ b.insns = xs ++ [i] ∧ (i.op = .ret ∨ i.op = .ja)) → Closed code) := by
  unfold Emit.emit at h
  obtain ⟨ts, h1, h⟩ := Out.bind_eq_ok.1 h
  obtain ⟨-, -, h⟩ := Out.bind_eq_ok.1 h
  have hl := lowerBlocks_lowered hw h1
  obtain ⟨rb, hr, hP⟩ := emit_parts hl h hlen
  refine ⟨hP.formed, fun hE => ?_⟩
  obtain ⟨T, tl, x, e, hT, hx, he⟩ := lowerBlocks_end hE h1
  exact parts_closed hl hr hP hlen hT hx he

/-- `r3 = 2 ^ 32 ll; r2 = *(u64 *)(r1 + 8); if r2 == 0 goto 2`, block 1: `r3 += r2`, block 2: `return r3`. -/
def exLoad : List FBlock :=
  [⟨0, [{ op := .assign, v0 := .const .plain 0x100000000 .w64 .none, valueNum := 1, dst := inReg 3, aluOp := .w64 },
        { op := .loadraw, addr := .pos (inReg 1), addrOff := 8, vrType := .t64, dst := inReg 2, aluOp := .w64 },
        { op := .jeq, v0 := .pos (inReg 2), v1 := const32 0, valueNum := 2, aluOp := .w64, bb1 := 1, bb2 := 2 }]⟩,
   ⟨1, [{ op := .add, v0 := .pos (inReg 3), v1 := .pos (inReg 2), valueNum := 2, aluOp := .w64, dst := inReg 3 }]⟩,
   ⟨2, [{ op := .ret, v0 := .pos (inReg 3), valueNum := 1 }]⟩]

def exLoadCode : List Slot :=
  [⟨0x18, 3, 0, 0, 0⟩, ⟨0x00, 0, 0, 0, 1⟩, ⟨0x79, 2, 1, 8, 0⟩, ⟨0x15, 2, 0, 1, 0⟩, ⟨0x0f, 3, 2, 0, 0⟩, ⟨0xbf, 0, 3, 0, 0⟩, ⟨0x95, 0, 0, 0, 0⟩]

/-- The hypotheses hold for it, with a wide load, a load and a jump. -/
example : Formed exLoadCode ∧ Closed exLoadCode := by
  have h := C80_emitted (bs := exLoad) (code := exLoadCode) (by decide +kernel)
    (by
      intro b hb i hi ho k c ct d e
      simp only [exLoad, List.mem_cons, List.not_mem_nil, or_false] at hb
      rcases hb with rfl | rfl | rfl <;> simp only [List.mem_cons, List.not_mem_nil, or_false] at hi <;> rcases hi with rfl | rfl | rfl <;> simp at e)
    (by decide)
  exact ⟨h.1, h.2 ⟨exLoad.take 2, ⟨2, [{ op := .ret, v0 := .pos (inReg 3), valueNum := 1 }]⟩, [], _, rfl, rfl, Or.inl rfl⟩⟩

/-- `r0 = *(u8 *)(5 + 0); exit`, the address a constant. -/
def exFixed : List FBlock :=
  [⟨0, [{ op := .loadraw, addr := const32 5, vrType := .t8, dst := inReg 0, aluOp := .w64 }, { op := .ret, v0 := .pos (inReg 0), valueNum := 1 }]⟩]

/-- The condition on addresses is needed: a load of a byte from a constant address ends without an error, and what is emitted begins with opcode `0x10`, which no instruction has. -/
theorem C80_emitted_violated : ∃ code, Emit.emit exFixed = .ok code ∧ ¬ Formed code := by
  refine ⟨[⟨0x10, 0, 0, 0, 5⟩, ⟨0x00, 0, 0, 0, 0⟩, ⟨0x95, 0, 0, 0, 0⟩], by decide +kernel, fun h => ?_⟩
  exact absurd (h.legal.enc _ List.mem_cons_self) (by decide +kernel)

end Verif.Compile
