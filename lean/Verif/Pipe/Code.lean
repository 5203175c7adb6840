import Verif.Pipe.Model
import Verif.Spec.Lifted
import Verif.Lift.Insns
import Verif.Check.Props
/-!
# Functions between the lifter and code generation
-/
namespace Verif.Pipe
open Verif Verif.IR
open Verif.Flatten (graphOf lastOf)
open Verif.Lift (plainOp)
open Verif.Lower (void)
open Verif.Edit (raw operands)

/-- Where a block goes. -/
inductive Route (f : Fn) (b : Nat) : Prop
  | fall (c : Nat) : (∀ x ∈ f.body b, ends (f.insn x).op = false) → f.succs b = [c] → Route f b
  | ja (x : Nat) (pre : List Nat) : f.body b = pre ++ [x] → (f.insn x).op = .ja → f.succs b = [(f.insn x).bb1] → Route f b
  | cond (x : Nat) (pre : List Nat) : f.body b = pre ++ [x] → (f.insn x).op.condJmp = true → f.succs b = [(f.insn x).bb1, (f.insn x).bb2] → Route f b
  | ret (x : Nat) (pre : List Nat) : f.body b = pre ++ [x] → (f.insn x).op = .ret → f.succs b = [] → Route f b

/-- A constant, the stack pointer, an argument or the result of an instruction that has one. -/
def Nice (f : Fn) (v : Val) : Prop := (∃ k, ∃ c : BitVec 32, v = .const k (c.signExtend 64) .w32 .none) ∨ ∃ y, v = .insn y ∧ (y = f.sp ∨ y ∈ f.args ∨ InBody f y ∧ void (f.insn y).op = false)

/-- Operations of lifted instructions. -/
def liftedOp (o : Op) : Prop := o = .phi ∨ plainOp o = true ∨ o = .ja ∨ o.condJmp = true ∨ o = .ret

/-- An instruction of such a function. -/
structure Fact (f : Fn) (i : Insn) : Prop where
  op : liftedOp i.op
  chk : InsnOk f i
  call : i.op = .call → i.aux ≠ 6 → i.vals.length = Lift.arity i.aux ∧ i.vals.length ≤ 5
  addr : raw i.op = false → i.addr = .undef
  vals : ∀ v ∈ operands i, Nice f v
  labels : ∀ o ∈ i.phi, o.1 ∈ f.allBbs
  once : (i.phi.map (·.1)).Nodup
  imm : i.op = .loadimm → i.immKind ≤ 6 ∧ i.vals = []

/-- What the lifter establishes and the passes that are on by default keep. -/
structure Code (f : Fn) : Prop where
  ok : Ok f
  ssa : Ssa f
  ordered : Ordered f
  last : EndsLast f
  graph : Graph f
  route : ∀ b ∈ f.allBbs, Route f b
  entry : f.entry ∈ f.allBbs
  first : f.preds f.entry = []
  conn : ∀ b ∈ f.allBbs, Conn f b
  wf : ∃ N, Layout.WF (graphOf f) f.entry N ∧ ∀ b, b < N → b ∈ f.allBbs
  insn : ∀ x, InBody f x → Fact f (f.insn x)
  fixed : ∀ y, y = f.sp ∨ y ∈ f.args → operands (f.insn y) = [] ∧ ((f.insn y).op = .reg ∨ (f.insn y).op = .funarg)
  reg : (f.insn f.sp).op = .reg
  five : f.args.length ≤ 5
  distinct : f.args.Nodup
  sp : f.sp ∉ f.args

variable {f : Fn}

theorem listed {f : Fn} (h : UsersSound f) : UsersListed f := fun y hy =>
  ⟨fun x hx => ⟨fun hm => Nat.lt_of_lt_of_le (List.count_pos_iff.2 hm) ((h y hy).1 x hx).1, ((h y hy).1 x hx).2⟩, (h y hy).2⟩

theorem cond_ends {o : Op} (h : o.condJmp = true) : ends o = true ∧ o ≠ .ja ∧ o ≠ .ret ∧ o ≠ .throw := by cases o <;> first | exact Bool.noConfusion h | exact ⟨rfl, by simp, by simp, by simp⟩

/-- What a block ends with and where it goes. -/
theorem Route.last {b : Nat} (h : Route f b) : (∃ t, lastOf f b = .ja t ∧ f.succs b = [t]) ∨ (∃ t e, lastOf f b = .cond t e ∧ f.succs b = [t, e]) ∨
    ((∀ t, lastOf f b ≠ .ja t) ∧ (∀ t e, lastOf f b ≠ .cond t e) ∧ ((∃ c, f.succs b = [c]) ∨ f.succs b = [])) := by
  have last : ∀ {x : Nat} {pre : List Nat}, f.body b = pre ++ [x] → lastOf f b = if (f.insn x).op = .ja then .ja (f.insn x).bb1 else if (f.insn x).op.condJmp then .cond (f.insn x).bb1 (f.insn x).bb2 else .other := by
    intro x pre e
    unfold lastOf
    rw [e, List.getLast?_append]
    rfl
  cases h with
  | fall c h1 h2 =>
    refine .inr (.inr ⟨?_, ?_, .inl ⟨c, h2⟩⟩)
    all_goals
      cases hl : (f.body b).getLast? with
      | none => unfold lastOf; rw [hl]; simp
      | some x =>
        have hx := h1 x (List.mem_of_getLast? hl)
        unfold lastOf
        rw [hl]
        dsimp only
        rw [if_neg (by intro e; rw [e] at hx; cases hx), if_neg (by intro e; rw [(cond_ends e).1] at hx; cases hx)]
        simp
  | ja x pre h1 h2 h3 => exact .inl ⟨_, by rw [last h1, if_pos h2], h3⟩
  | cond x pre h1 h2 h3 => exact .inr (.inl ⟨_, _, by rw [last h1, if_neg (cond_ends h2).2.1, if_pos h2], h3⟩)
  | ret x pre h1 h2 h3 =>
    have : lastOf f b = .other := by rw [last h1, h2]; rfl
    refine .inr (.inr ⟨by simp [this], by simp [this], .inr h3⟩)

theorem Route.jumps {b : Nat} (h : Route f b) (hn : (f.body b).Nodup) {A B : List Nat} {x : Nat} (e : f.body b = A ++ x :: B) (hx : ends (f.insn x).op = true) (hB : B = []) : SuccsOk f b x := by
  subst hB
  have same : ∀ {z : Nat} {pre : List Nat}, f.body b = pre ++ [z] → z = x := fun h1 => by
    rw [h1] at e
    have := List.append_inj_right' e rfl
    simpa using this
  unfold SuccsOk
  cases h with
  | fall c h1 h2 => rw [h1 x (by rw [e]; simp)] at hx; cases hx
  | ja z pre h1 h2 h3 => rw [same h1] at h2 h3; simp [h2, h3, Norm.Op.condJmp]
  | cond z pre h1 h2 h3 =>
    rw [same h1] at h2 h3
    obtain ⟨_, _, c1, c2⟩ := cond_ends h2
    simp [h2, h3, c1, c2]
  | ret z pre h1 h2 h3 => rw [same h1] at h2; simp [h2, h3]

theorem Route.fallOnly {b : Nat} (h : Route f b) (hx : ∀ x ∈ f.body b, ends (f.insn x).op = false) : ∃ t, f.succs b = [t] := by
  cases h with
  | fall c h1 h2 => exact ⟨c, h2⟩
  | ja x pre h1 h2 h3 => have := hx x (by rw [h1]; simp); rw [h2] at this; cases this
  | cond x pre h1 h2 h3 => have := hx x (by rw [h1]; simp); rw [(cond_ends h2).1] at this; cases this
  | ret x pre h1 h2 h3 => have := hx x (by rw [h1]; simp); rw [h2] at this; cases this

/-- Successor arrays that are in order stay. -/
theorem genSucc_same {g : Layout.Graph} (all : List Nat) (h : ∀ b ∈ all, Layout.fixSucc (g b) = .ok (g b)) : Layout.genSucc g all = .ok g := by
  induction all with
  | nil => rfl
  | cons b bs ih =>
    simp only [Layout.genSucc]
    rw [h b (by simp), Out.ok_bind]
    have : (fun c => if c = b then g b else g c) = g := by 
      funext c
      split
      · rename_i e; rw [e]
      · rfl
    rw [this]
    exact ih fun b hb => h b (by simp [hb])

theorem Route.fix {b : Nat} (h : Route f b) : Layout.fixSucc (graphOf f b) = .ok (graphOf f b) := by
  unfold Layout.fixSucc graphOf
  rcases h.last with ⟨t, h1, h2⟩ | ⟨t, e, h1, h2⟩ | ⟨h1, h2, _⟩
  · simp only [h1, h2]
  · simp only [h1, h2]
  · dsimp only
    split
    · next e => exact absurd e (h2 _ _)
    · next e => exact absurd e (h1 _)
    · rfl

theorem Code.genSucc (h : Code f) : Layout.genSucc (graphOf f) f.allBbs = .ok (graphOf f) := genSucc_same _ fun b hb => (h.route b hb).fix

theorem live_of {y : Nat} {R : List Nat} (hR : ∀ b ∈ R, b ∈ f.allBbs) (hy : y = f.sp ∨ y ∈ f.args ∨ ∃ b ∈ R, y ∈ f.body b) : Live f y :=
  hy.imp id (Or.imp id fun ⟨b, hb, hx⟩ => ⟨b, hR b hb, hx⟩)

/-- The checker accepts. -/
theorem Code.wellFormed (h : Code f) {R : List Nat} (hR : ∀ b ∈ R, b ∈ f.allBbs) : WellFormed f R where
  parent := fun b hb x hx => h.ok.tidy.parent b (hR b hb) x hx
  insns := fun b hb x hx => (h.insn x ⟨b, hR b hb, hx⟩).chk
  phis := by
    intro b hb A x B e hx a ha
    by_cases hp : (f.insn a).op = .phi
    · exact hp
    · exfalso
      obtain ⟨A1, A2, rfl⟩ := List.append_of_mem ha
      have hc : x ∈ codeOf f b := by
        unfold codeOf
        rw [e, List.append_assoc, List.dropWhile_append]
        split
        · rw [List.cons_append, List.dropWhile_cons_of_neg (by simp [hp])]; simp
        · simp
      exact h.ok.phis b x hc hx
  users := by
    intro y hy u hu
    have hl := live_of hR hy
    have h1 := ((h.ok.users y hl).1 u ((h.ok.users y hl).2 u hu)).1
    have := List.count_pos_iff.2 hu
    omega
  listed := by
    intro b hb x hx y hr
    have hl : Live f x := .inr (.inr ⟨b, hR b hb, hx⟩)
    exact ((h.ok.users y (h.ok.tidy.closed x y hl hr)).1 x hl).2 hr
  preds := fun b hb p hp => ((h.graph.sym p ((h.graph.preds b (hR b hb)).2 p hp) b (hR b hb)).2 hp)
  succs := fun b hb t ht => ((h.graph.sym b (hR b hb) t ((h.graph.succs b (hR b hb)).2 t ht)).1 ht)
  jumps := fun b hb A x B e hx => ⟨h.last b A x B e hx, (h.route b (hR b hb)).jumps (h.ok.tidy.nodup b (hR b hb)) e hx (h.last b A x B e hx)⟩
  fall := fun b hb hx => (h.route b (hR b hb)).fallOnly hx

/-- On such a function `post` changes nothing and succeeds. -/
theorem Code.post (h : Code f) : ∃ k R, LaidOut f R ∧ Layout.layout (graphOf f) k f.entry = some (.ok R) ∧ ∀ fuel, k ≤ fuel → ∀ check, Pipe.post fuel check f = .ok (f, R) := by
  obtain ⟨N, hw, hN⟩ := h.wf
  obtain ⟨k, hk⟩ := Layout.layout_total hw
  obtain ⟨R, h1, hg⟩ := hk k (Nat.le_refl _)
  have hsub : ∀ b ∈ R, b ∈ f.allBbs := fun b hb => hN b (hg.lt b hb)
  have hall : ∀ b, Conn f b → b ∈ R := by
    intro b hb
    induction hb with
    | entry => exact List.mem_of_mem_head? hg.first
    | step _ hc ih => exact hg.closed _ ih _ hc
  have hwf := (Check.C24_checker f R).2 (h.wellFormed hsub)
  refine ⟨k, R, ⟨hg.nodup, fun b => ⟨hsub b, fun hb => hall b (h.conn b hb)⟩, hg.first, hg.adj⟩, h1, fun fuel hf check => ?_⟩
  unfold Pipe.post
  rw [h.genSucc, Out.ok_bind]
  have e : withSuccs f (graphOf f) = f := rfl
  dsimp only
  rw [e, Layout.layout_mono h1 hf]
  dsimp only
  rw [Out.ok_bind]
  cases check
  · rfl
  · rw [if_pos rfl, hwf]; rfl

end Verif.Pipe
