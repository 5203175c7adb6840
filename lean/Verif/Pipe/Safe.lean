import Verif.Pipe.RunProps
import Verif.Compile.Safe
/-!
# Code generation on what the passes hand on
-/
namespace Verif.Pipe
open Verif Verif.IR
open Verif.Flatten (graphOf lastOf)
open Verif.Edit (raw operands)
open Verif.Stack (prep Form)
open Verif.Compile (InR Safe Tight NoSelf Sturdy Steps OkV Jump okOp)

variable {f : Fn}

/-- Every store has an address that is computed: the result of an instruction, an argument or the stack pointer. -/
def NoFixedStore (f : Fn) : Prop := ∀ x, InBody f x → (f.insn x).op = .storeraw → ∃ y, (f.insn x).addr = .insn y

theorem Code.tight (h : Code f) : Tight (fun y => Live f y ∨ f.next ≤ y) f := by
  intro y hy hlt u hu
  have hl : Live f y := hy.resolve_right (by omega)
  obtain ⟨h1, h2⟩ := h.ok.users y hl
  by_cases hm : u ∈ f.users y
  · exact (h1 u (h2 u hm)).1
  · rw [List.count_eq_zero.2 hm]; omega

theorem Code.noSelf (h : Code f) {R : List Nat} (hl : LaidOut f R) : NoSelf f R := by
  rintro x ⟨b, hb, hx⟩ ho hm
  obtain ⟨l, r, e⟩ := List.append_of_mem hx
  have h1 := h.ordered b (h.reach ((hl.mem b).1 hb)) l x r e (by intro hp; rw [hp] at ho; cases ho) x (by simp)
  have h2 := Edit.refs_pos.2 hm
  omega

theorem lifted_ok {o : Op} (h : liftedOp o) : okOp o = true ∧ o ≠ .assign := by
  rcases h with h | h | h | h | h
  · rw [h]; exact ⟨rfl, by simp⟩
  · cases o <;> first | exact Bool.noConfusion h | exact ⟨rfl, by simp⟩
  · rw [h]; exact ⟨rfl, by simp⟩
  · cases o <;> first | exact Bool.noConfusion h | exact ⟨rfl, by simp⟩
  · rw [h]; exact ⟨rfl, by simp⟩

theorem binAlu_arity {o : Op} (h : o.binAlu = true) : arity o = some 2 := by cases o <;> first | exact Bool.noConfusion h | rfl

theorem condJmp_arity {o : Op} (h : o.condJmp = true) : arity o = some 2 := by cases o <;> first | exact Bool.noConfusion h | rfl

theorem Fact.sturdy {l : Bool} {i : Insn} (k : Fact f i) (hs : i.op = .storeraw ∨ l = true ∧ i.op = .loadraw → ∃ y, i.addr = .insn y) : Sturdy (l, false) i where
  op := (lifted_ok k.op).1
  ops := fun v hv => by
    rcases k.vals v hv with ⟨k', c, e⟩ | ⟨y, e, _⟩
    · exact .inr ⟨_, _, e⟩
    · exact .inl ⟨y, e⟩
  two := fun o => by
    rcases o with o | o | o
    · exact k.chk.arity 2 (binAlu_arity o)
    · exact k.chk.arity 2 (condJmp_arity o)
    · exact absurd o (lifted_not k.op).2.2.2.1
  one := fun o => by
    rcases o with o | o | o | o | o | o
    · exact k.chk.arity 1 (by rw [o]; rfl)
    · exact k.chk.arity 1 (by rw [o]; rfl)
    · exact k.chk.arity 1 (by rw [o]; rfl)
    · exact absurd o (lifted_ok k.op).2
    · exact absurd o (lifted_not k.op).2.2.1
    · exact k.chk.arity 1 (by rw [o]; rfl)
  ret := fun o => by rw [k.chk.arity 1 (by rw [o]; rfl)]; omega
  typ := fun o => k.chk.size (by rcases o with o | o | o <;> simp [o])
  sto := hs
  imm := fun o => (k.imm o).1
  test := fun h => by cases h

theorem Code.steps (h : Code f) {R : List Nat} (hl : LaidOut f R) : Steps f R := by
  intro b hb p hp hj
  have hpb : p ∈ f.allBbs := (h.graph.preds b hb).2 p hp
  have hs : b ∈ f.succs p := (h.graph.sym p hpb b hb).2 hp
  have hr := h.route p hpb
  cases hr with
  | fall c h1 h2 =>
    rw [h2] at hs
    have hs := List.mem_singleton.1 hs
    subst hs
    have hf : Layout.Falls (graphOf f) p b := by
      refine .inl ⟨h2, ?_⟩
      rcases (Route.fall b h1 h2 : Route f p).last with ⟨t, e, _⟩ | ⟨t, e', e, e2⟩ | ⟨e, _, _⟩
      · obtain ⟨pre, x, e1, e2, _⟩ := Flatten.lastOf_ja e
        exact absurd (.inl e2) (hj x (by rw [e1]; simp))
      · rw [h2] at e2; simp at e2
      · unfold Layout.Blk.jaTo graphOf
        dsimp only
        split
        · next t e' => exact absurd e' (e t)
        · rfl
    obtain ⟨A, B, e⟩ := hl.next p ((hl.mem p).2 hpb) b hf
    have hn := hl.nodup
    rw [e] at hn ⊢
    have h1 : p ∉ A := fun hm => by
      have := (List.nodup_append.1 hn).2.2 p hm p (by simp)
      exact this rfl
    have h2 : b ∉ A := fun hm => by
      have := (List.nodup_append.1 hn).2.2 b hm b (by simp)
      exact this rfl
    have h3 : p ≠ b := by
      have := (List.nodup_cons.1 (List.nodup_append.1 hn).2.1).1
      intro e; exact this (by rw [e]; simp)
    rw [List.idxOf_append, List.idxOf_append, if_neg h1, if_neg h2]
    have h4 : (p == b) = false := by simpa using h3
    simp [List.idxOf_cons, h4]
  | ja x pre h1 h2 h3 => exact absurd (.inl h2) (hj x (by rw [h1]; simp))
  | cond x pre h1 h2 h3 => exact absurd (.inr h2) (hj x (by rw [h1]; simp))
  | ret x pre h1 h2 h3 => rw [h3] at hs; simp at hs

theorem Code.compile_safe (h : Code f) {R : List Nat} (hl : LaidOut f R) (h6 : NoPrintk f) (hF : ∀ x, InBody f x → Form f.sp 0 .rawoff (f.insn x)) (hs : NoFixedStore f) :
    Safe (Compile.compile f R) :=
  Compile.compile_safe (h.ready hl h6) (h.neat hl) (h.fits hl hF)
    (fun b hb x hx ho => absurd ho (h.plain (.inr (.inr ⟨b, (hl.mem b).1 hb, hx⟩))).2) h.tight (h.noSelf hl)
    (fun _ ⟨b, hb, hx⟩ => (h.insn _ ⟨b, (hl.mem b).1 hb, hx⟩).sturdy (l := false) fun o => hs _ ⟨b, (hl.mem b).1 hb, hx⟩ (o.resolve_right fun o => by cases o.1)) hl.mem h.graph (h.steps hl)

end Verif.Pipe
