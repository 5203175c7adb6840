import Verif.Pipe.SafeProps
import Verif.Emit.BuiltinProps
/-!
# C77: in whole runs, without passes that make builtin constants, the replacement of builtin constants does nothing
-/
namespace Verif.Pipe
open Verif Verif.IR Verif.Bpf
open Verif.Stack (prep Form)
open Verif.Compile (compileB)

variable {f : Fn} {R : List Nat}

theorem Code.compileB_iff (h : Code f) (hl : LaidOut f R) (h6 : NoPrintk f) (hF : ∀ x, InBody f x → Form f.sp 0 .rawoff (f.insn x)) (hs : NoFixedStore f) (C : Nat → Bool)
    (r : Compile.Result) : compileB C f R = .ok r ↔ Compile.compile f R = .ok r :=
  Compile.compileB_iff (h.ready hl h6) (h.neat hl) (h.fits hl hF)
    (fun b hb x hx ho => absurd ho (h.plain (.inr (.inr ⟨b, (hl.mem b).1 hb, hx⟩))).2) h.tight (h.noSelf hl)
    (fun _ ⟨b, hb, hx⟩ => (h.insn _ ⟨b, (hl.mem b).1 hb, hx⟩).sturdy (l := false) fun o => hs _ ⟨b, (hl.mem b).1 hb, hx⟩ (o.resolve_right fun o => by cases o.1)) hl.mem h.graph (h.steps hl) C r

/-- `bpf_ir_autorun` without options (core/bpf_ir.c:1941-1991), with the replacement of builtin constants. -/
def autorunB (C : Nat → Bool) (n fuel : Nat) (check : Bool) (P : List Bpf.Slot) : Out Run := do
  let s ← lift n fuel check P
  let s ← passes fuel check s
  let t ← pass fuel check (fun _ f => Stack.pre f) s
  let r ← compileB C t.1 t.2
  .ok ⟨s.1, t.1, t.2, r⟩

/-- **C77** (whole runs, partial): for every well-shaped program of at most 32768 slots from which control never runs off the end, whose instructions are lifted faithfully and that the lifter
accepts, the passes succeed with some function `g`, and if `g` uses the frame pointer only in the usual forms and stores only to addresses that are computed, the run with the
replacement of builtin constants gives what the run without it gives; so what C60, C62, C73 and C76 say of runs holds of runs with the replacement. -/
theorem C77_run_partial {P : List Slot} (hw : WellShaped P) (hc : Closed P) (hlen : P.length ≤ 32768) (hu : ∀ sl ∈ P, ∀ i, decode sl = some i → Usual i)
    (hcl : ∀ sl ∈ P, ∀ i, decode sl = some i → Lift.Clean i) {n : Nat} {f : Fn} (hf : Lift.lift n P = .ok f) :
    ∃ g R k, (∀ fuel, k ≤ fuel → ∀ check, (do let s ← lift n fuel check P; passes fuel check s) = .ok (g, R)) ∧
      ((∀ x, InBody g x → Form g.sp 0 .plain (g.insn x)) → NoFixedStore g →
        ∃ k', ∀ fuel, k' ≤ fuel → ∀ check C A, autorunB C n fuel check P = .ok A ↔ autorun n fuel check P = .ok A) := by
  obtain ⟨f', R', k, g, R, h1, _, _, h2, h3, h6, _⟩ := passes_lift hw hc hlen hu hcl hf
  refine ⟨g, R, k, fun fuel hfu check => ?_, fun hF hs => ?_⟩
  · obtain ⟨e1, e2⟩ := h1 fuel hfu check
    rw [e1, Out.ok_bind]
    exact e2
  · obtain ⟨k2, R2, lR, -, hk⟩ := h2.marked.post
    obtain ⟨p1, -⟩ := h2.pre hF
    refine ⟨k + k2, fun fuel hfu check C A => ?_⟩
    obtain ⟨e1, e2⟩ := h1 fuel (by omega) check
    have ep : ∀ R, pass fuel check (fun _ f => Stack.pre f) (g, R) = .ok (marked g, R2) := fun R => by
      unfold pass
      dsimp only
      rw [p1, Out.ok_bind, hk fuel (by omega) check]
    obtain ⟨-, -, -, hno, hF', -⟩ := marked_of h2 h6 (ep []) hF
    have hi := h2.marked.compileB_iff lR hno hF' (marked_store hs) C
    unfold autorun autorunB
    simp only [e1, Out.ok_bind, e2, ep R, Out.bind_eq_ok]
    exact ⟨fun ⟨r, a, b⟩ => ⟨r, (hi r).1 a, b⟩, fun ⟨r, a, b⟩ => ⟨r, (hi r).2 a, b⟩⟩

/-- The hypotheses hold for `exA`, as in C76, and the run with the replacement succeeds. -/
example : Fair exA ∧ (Lift.lift 100 exA).isOk = true ∧ Cg.onOk (do let s ← lift 100 100 true exA; passes 100 true s) (fun s => tameB s.1) = true ∧
    (autorunB (fun _ => true) 100 100 true exA).isOk = true :=
  ⟨fair_of_check (by decide +kernel), by decide +kernel, by decide +kernel, by decide +kernel⟩

end Verif.Pipe
