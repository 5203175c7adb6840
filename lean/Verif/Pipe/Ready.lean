import Verif.Pipe.Shrink
import Verif.Compile.Props
/-!
# The functions the passes hand to code generation
-/
namespace Verif.Pipe
open Verif Verif.IR
open Verif.Flatten (graphOf lastOf)
open Verif.Lower (void own Ready Neat)
open Verif.Edit (raw operands)
open Verif.Stack (prep Form)
open Verif.Compile (InR Fits ops)
open Verif.Loc (phisOf_phi phisOf_append)

variable {f : Fn}

/-! ## Marking the uses of the stack pointer -/

/-- The function after `pre`. -/
def marked (f : Fn) : Fn := { f with insn := fun x => if x ∈ f.users f.sp then prep f.sp (f.insn x) else f.insn x }

theorem prep_cases (sp : Nat) (i : Insn) : prep sp i = i ∨ ∃ c ct b, i.op = .add ∧ i.vals = [.insn sp, .const .plain c ct b] ∧ prep sp i = { i with vals := [.insn sp, .const .rawoff c ct b] } := by
  unfold prep
  split
  · rename_i y c ct b ho hv
    split
    · rename_i e
      subst e
      exact .inr ⟨c, ct, b, ho, hv, rfl⟩
    · exact .inl rfl
  · exact .inl rfl

theorem prep_refs (sp : Nat) (i : Insn) (y : Nat) : refs (prep sp i) y = refs i y := by
  rcases prep_cases sp i with e | ⟨c, ct, b, ho, hv, e⟩
  · rw [e]
  · rw [e]
    unfold refs
    simp [hv, ho, List.count_cons]

theorem marked_cases (f : Fn) (x : Nat) : (marked f).insn x = f.insn x ∨ ∃ c ct b, (f.insn x).op = .add ∧ (f.insn x).vals = [.insn f.sp, .const .plain c ct b] ∧
    (marked f).insn x = { f.insn x with vals := [.insn f.sp, .const .rawoff c ct b] } := by
  unfold marked
  dsimp only
  split
  · exact prep_cases _ _
  · exact .inl rfl

theorem marked_same (f : Fn) (x : Nat) : ((marked f).insn x).op = (f.insn x).op ∧ ((marked f).insn x).bb1 = (f.insn x).bb1 ∧ ((marked f).insn x).bb2 = (f.insn x).bb2 ∧
    ((marked f).insn x).phi = (f.insn x).phi ∧ ∀ y, refs ((marked f).insn x) y = refs (f.insn x) y := by
  unfold marked
  dsimp only
  split
  · have := Stack.prep_same f.sp (f.insn x)
    exact ⟨this.1, this.2.1, this.2.2.1, this.2.2.2.1, prep_refs _ _⟩
  · exact ⟨rfl, rfl, rfl, rfl, fun _ => rfl⟩

theorem marked_edge {a b : Nat} : Edge (marked f) a b ↔ Edge f a b := by
  constructor
  · rintro (⟨x, h1, h2, h3⟩ | ⟨x, h1, h2, h3⟩ | h)
    · exact .ja x h1 (by rw [← (marked_same f x).1]; exact h2) (by rw [← (marked_same f x).2.1]; exact h3)
    · exact .cond x h1 (by rw [← (marked_same f x).1]; exact h2) (by rw [← (marked_same f x).2.1, ← (marked_same f x).2.2.1]; exact h3)
    · exact .fall h
  · rintro (⟨x, h1, h2, h3⟩ | ⟨x, h1, h2, h3⟩ | h)
    · exact .ja x h1 (by rw [(marked_same f x).1]; exact h2) (by rw [(marked_same f x).2.1]; exact h3)
    · exact .cond x h1 (by rw [(marked_same f x).1]; exact h2) (by rw [(marked_same f x).2.1, (marked_same f x).2.2.1]; exact h3)
    · exact .fall h

theorem marked_walk {l : List Nat} : Walk (marked f) l ↔ Walk f l := by
  constructor
  · intro h
    induction h with
    | entry => exact .entry
    | step a b h _ he ih => exact .step a b h ih (marked_edge.1 he)
  · intro h
    induction h with
    | entry => exact .entry
    | step a b h _ he ih => exact .step a b h ih (marked_edge.2 he)

theorem marked_dom {a b : Nat} : Dom (marked f) a b ↔ Dom f a b := by
  unfold Dom
  simp only [marked_walk]

theorem marked_last (f : Fn) (b : Nat) : lastOf (marked f) b = lastOf f b := by
  unfold lastOf
  show (match (f.body b).getLast? with | none => _ | some x => _) = _
  cases (f.body b).getLast? with
  | none => rfl
  | some x =>
    dsimp only
    rw [(marked_same f x).1, (marked_same f x).2.1, (marked_same f x).2.2.1]

theorem marked_graph (f : Fn) : graphOf (marked f) = graphOf f := by
  funext b
  unfold graphOf
  rw [marked_last]
  rfl

theorem marked_phis (f : Fn) (b : Nat) : phisOf (marked f) b = phisOf f b ∧ codeOf (marked f) b = codeOf f b := by
  unfold phisOf codeOf
  have : (fun x => decide (((marked f).insn x).op = .phi)) = fun x => decide ((f.insn x).op = .phi) := by
    funext x; rw [(marked_same f x).1]
  exact ⟨congrArg (fun p => (f.body b).takeWhile p) this, congrArg (fun p => (f.body b).dropWhile p) this⟩

theorem marked_operands {x : Nat} {v : Val} (h : v ∈ operands ((marked f).insn x)) : v ∈ operands (f.insn x) ∨ ∃ c ct b, v = .const .rawoff c ct b ∧ .const .plain c ct b ∈ operands (f.insn x) := by
  rcases marked_cases f x with e | ⟨c, ct, b, ho, hv, e⟩
  · rw [e] at h; exact .inl h
  · rw [e] at h
    unfold operands at h ⊢
    simp only [ho, hv] at h ⊢
    simp [raw] at h ⊢
    rcases h with h | h
    · exact .inl (.inl h)
    · exact .inr ⟨c, ct, b, h, rfl, rfl, rfl⟩

theorem marked_nice {v : Val} (h : Nice f v) : Nice (marked f) v := by
  rcases h with h | ⟨y, e, h⟩
  · exact .inl h
  · refine .inr ⟨y, e, ?_⟩
    rcases h with h | h | ⟨h1, h2⟩
    · exact .inl h
    · exact .inr (.inl h)
    · exact .inr (.inr ⟨h1, by rw [(marked_same f y).1]; exact h2⟩)

theorem Route.marked {b : Nat} (h : Route f b) : Route (marked f) b := by
  cases h with
  | fall c h1 h2 => exact .fall c (fun x hx => by rw [(marked_same f x).1]; exact h1 x hx) h2
  | ja x pre h1 h2 h3 => exact .ja x pre h1 (by rw [(marked_same f x).1]; exact h2) (by rw [(marked_same f x).2.1]; exact h3)
  | cond x pre h1 h2 h3 => exact .cond x pre h1 (by rw [(marked_same f x).1]; exact h2) (by rw [(marked_same f x).2.1, (marked_same f x).2.2.1]; exact h3)
  | ret x pre h1 h2 h3 => exact .ret x pre h1 (by rw [(marked_same f x).1]; exact h2) h3

theorem Fact.marked {x : Nat} (k : Fact f (f.insn x)) : Fact (marked f) ((Pipe.marked f).insn x) := by
  have hv : ∀ v ∈ operands ((Pipe.marked f).insn x), Nice (Pipe.marked f) v := by
    intro v hv
    rcases marked_operands hv with h | ⟨c, ct, b, rfl, h⟩
    · exact marked_nice (k.vals v h)
    · rcases k.vals _ h with ⟨k', c', e⟩ | ⟨y, e, _⟩
      · cases e; exact .inl ⟨_, _, rfl⟩
      · cases e
  have isop : ∀ {o : Op} {v : Val}, IsOp f o v → IsOp (Pipe.marked f) o v := by
    rintro o v ⟨a, e, h⟩
    exact ⟨a, e, by rw [(marked_same f a).1]; exact h⟩
  rcases marked_cases f x with e | ⟨c, ct, b, ho, hvs, e⟩
  · rw [e] at hv ⊢
    refine ⟨k.op, ⟨k.chk.arity, k.chk.swap, fun h => ?_, fun h => ?_, k.chk.fid, k.chk.width, k.chk.size, k.chk.consts, k.chk.phiConsts, k.chk.addrConst⟩, k.call, k.addr, hv, k.labels, k.once, k.imm⟩
    · obtain ⟨v, vs, e1, e2⟩ := k.chk.var h; exact ⟨v, vs, e1, isop e2⟩
    · obtain ⟨v, w, vs, e1, e2⟩ := k.chk.elem h; exact ⟨v, w, vs, e1, isop e2⟩
  · rw [e] at hv ⊢
    refine ⟨k.op, ⟨fun n hn => ?_, k.chk.swap, ?_, ?_, k.chk.fid, k.chk.width, k.chk.size, ?_, k.chk.phiConsts, k.chk.addrConst⟩, ?_, k.addr, hv, k.labels, k.once, ?_⟩
    · have := k.chk.arity n hn; rw [hvs] at this; exact this
    · dsimp only; rw [ho]; simp
    · dsimp only; rw [ho]; simp
    · simp [ConstOk]
    · dsimp only; rw [ho]; simp
    · dsimp only; rw [ho]; simp

/-- Marking keeps everything. -/
theorem Code.marked (h : Code f) : Code (marked f) where
  ok := by
    refine ⟨⟨h.ok.tidy.lt, fun x y hx hr => h.ok.tidy.closed x y hx (by rw [← (marked_same f x).2.2.2.2 y]; exact hr), h.ok.tidy.parent, h.ok.tidy.nodup, h.ok.tidy.fixed⟩, fun y hy => ⟨fun x hx => ?_, (h.ok.users y hy).2⟩, ?_, h.ok.only⟩
    · rw [(marked_same f x).2.2.2.2 y]; exact (h.ok.users y hy).1 x hx
    · intro b x hx
      rw [(marked_phis f b).2] at hx
      rw [(marked_same f x).1]
      exact h.ok.phis b x hx
  ssa := by
    refine ⟨fun b z hz ho y hy hr => ?_, fun b z hz ho p y hm hy => ?_, fun b z hz ho p l hw he => ?_, fun z hz => ?_, fun b z hz ho a ha => ?_⟩
    · rw [(marked_same f z).1] at ho
      rw [(marked_same f z).2.2.2.2 y] at hr
      exact marked_dom.2 (h.ssa.uses b z hz ho y hy hr)
    · rw [(marked_same f z).1] at ho
      rw [(marked_same f z).2.2.2.1] at hm
      exact marked_dom.2 (h.ssa.phiUses b z hz ho p y hm hy)
    · rw [(marked_same f z).1] at ho
      rw [(marked_same f z).2.2.2.1]
      exact h.ssa.phiAll b z hz ho p l (marked_walk.1 hw) (marked_edge.1 he)
    · rw [(marked_same f z).1]; exact h.ssa.entry z hz
    · rw [(marked_same f z).1] at ho
      rw [(marked_same f a).1]
      rcases marked_cases f z with e | ⟨c, ct, b', ho', hvs, e⟩
      · rw [e] at ha; exact h.ssa.vars b z hz ho a ha
      · rw [ho'] at ho; simp at ho
  ordered := by
    rintro b ⟨l, hw⟩ l1 z r e ho y hy
    rw [(marked_same f z).1] at ho
    rw [(marked_same f z).2.2.2.2 y]
    exact h.ordered b ⟨l, marked_walk.1 hw⟩ l1 z r e ho y hy
  last := fun b l z r e he => h.last b l z r e (by rw [← (marked_same f z).1]; exact he)
  graph := ⟨h.graph.sym, h.graph.succs, h.graph.preds⟩
  route := fun b hb => (h.route b hb).marked
  entry := h.entry
  first := h.first
  conn := fun b hb => by
    have := h.conn b hb
    clear hb
    induction this with
    | entry => exact .entry
    | step _ h2 ih => exact .step ih h2
  wf := by
    obtain ⟨N, h1, h2⟩ := h.wf
    exact ⟨N, by rw [marked_graph]; exact h1, h2⟩
  insn := fun x hx => (h.insn x hx).marked
  fixed := fun y hy => by
    obtain ⟨h1, h2⟩ := h.fixed y hy
    rw [(marked_same f y).1]
    refine ⟨?_, h2⟩
    rcases marked_cases f y with e | ⟨c, ct, b, ho, hvs, e⟩
    · rw [e]; exact h1
    · rw [ho] at h2; simp at h2
  reg := by
    show ((Pipe.marked f).insn f.sp).op = .reg
    rw [(marked_same f f.sp).1]; exact h.reg
  five := h.five
  distinct := h.distinct
  sp := h.sp

/-- The uses of the stack pointer, each once. -/
theorem Code.spUsers (h : Code f) (hf : ∀ x, InBody f x → ∃ d, Form f.sp d .plain (f.insn x)) :
    (f.users f.sp).Nodup ∧ (∀ x ∈ f.users f.sp, 0 < refs (f.insn x) f.sp ∧ InBody f x) ∧ ∀ x, InBody f x → 0 < refs (f.insn x) f.sp → x ∈ f.users f.sp := by
  obtain ⟨h1, h2⟩ := h.ok.users f.sp (.inl rfl)
  have hb : ∀ x ∈ f.users f.sp, 0 < refs (f.insn x) f.sp ∧ InBody f x := by
    intro x hx
    have hl := h2 x hx
    have hp : 0 < refs (f.insn x) f.sp := Nat.lt_of_lt_of_le (List.count_pos_iff.2 hx) (h1 x hl).1
    refine ⟨hp, ?_⟩
    have : ∀ y, y = f.sp ∨ y ∈ f.args → refs (f.insn y) f.sp = 0 := fun y hy => by
      rw [Edit.refs_eq, (h.fixed y hy).1]; rfl
    rcases hl with e | e | e
    · have := this x (.inl e); omega
    · have := this x (.inr e); omega
    · exact e
  refine ⟨?_, hb, fun x hx hp => (h1 x (.inr (.inr hx))).2 hp⟩
  rw [List.nodup_iff_count]
  intro x
  by_cases hx : x ∈ f.users f.sp
  · obtain ⟨_, hi⟩ := hb x hx
    refine Nat.le_trans (h1 x (.inr (.inr hi))).1 ?_
    obtain ⟨d, hF⟩ := hf x hi
    cases hF with
    | other hr _ => omega
    | access ho ha hk hv _ _ =>
      unfold refs
      have : (f.insn x).vals.count (.insn f.sp) = 0 := List.count_eq_zero.2 fun hm => hv _ hm rfl
      have hp : (f.insn x).op ≠ .phi := by rcases ho with e | e <;> rw [e] <;> simp
      rw [this, if_neg hp]
      split <;> omega
    | add c ct b ho hw hv =>
      unfold refs
      rw [ho, hv]
      simp [List.count_cons]
  · rw [List.count_eq_zero.2 hx]; omega

theorem Code.pre (h : Code f) {d : BitVec 16} (hf : ∀ x, InBody f x → Form f.sp d .plain (f.insn x)) : Stack.pre f = .ok (Pipe.marked f) ∧
    ∀ x, InBody f x → (Pipe.marked f).insn x = prep f.sp (f.insn x) := by
  obtain ⟨h1, h2, h3⟩ := h.spUsers fun x hx => ⟨d, hf x hx⟩
  have := Stack.preLoop_ok (d := d) (f.users f.sp).length 0 f (by simp) h1 (fun x hx => by
    obtain ⟨a, b⟩ := h2 x (by simpa using hx)
    exact ⟨hf x b, a⟩)
  refine ⟨by simp only [List.drop_zero] at this; exact this, fun x hx => ?_⟩
  show (if x ∈ f.users f.sp then prep f.sp (f.insn x) else f.insn x) = _
  split
  · rfl
  · rename_i hn
    exact (Stack.prep_noref (Nat.eq_zero_of_not_pos fun hp => hn (h3 x hx hp))).symm

/-! ## The conditions of code generation -/

theorem Route.edge {b c : Nat} (h : Route f b) (hc : c ∈ f.succs b) : Edge f b c := by
  cases h with
  | fall d h1 h2 => rw [h2] at hc; rw [List.mem_singleton.1 hc]; exact .fall h2
  | ja x pre h1 h2 h3 => rw [h3] at hc; exact .ja x (by rw [h1]; simp) h2 (List.mem_singleton.1 hc).symm
  | cond x pre h1 h2 h3 =>
    rw [h3] at hc
    refine .cond x (by rw [h1]; simp) h2 ?_
    rcases List.mem_cons.1 hc with e | e
    · exact .inl e.symm
    · exact .inr (List.mem_singleton.1 e).symm
  | ret x pre h1 h2 h3 => rw [h3] at hc; simp at hc

/-- A value that is needed is the stack pointer, an argument or a result. -/
theorem Code.needed_nice (h : Code f) {y b : Nat} {rest : List Nat} (hb : b ∈ f.allBbs) (hr : ∀ x ∈ rest, x ∈ f.body b) (hn : IR.Needed f (own f) y b rest) :
    y = f.sp ∨ y ∈ f.args ∨ InBody f y ∧ void (f.insn y).op = false := by
  have nice : ∀ {z : Nat}, InBody f z → .insn y ∈ operands (f.insn z) → y = f.sp ∨ y ∈ f.args ∨ InBody f y ∧ void (f.insn y).op = false := by
    intro z hz hm
    rcases (h.insn z hz).vals _ hm with ⟨k, c, e⟩ | ⟨y', e, hy⟩
    · cases e
    · cases e; exact hy
  induction hn with
  | @use b s rest ho hp => exact nice ⟨b, hb, hr s (by simp)⟩ (List.count_pos_iff.1 (by rw [← Edit.refs_eq]; exact hp))
  | skip _ _ ih => exact ih hb fun x hx => hr x (by simp [hx])
  | @phi b c p hc hp ho hm =>
    refine nice ⟨c, (h.graph.succs b hb).2 c hc, hp⟩ ?_
    unfold operands
    rw [if_pos ho]
    exact List.mem_append_left _ (List.mem_append_right _ (List.mem_map.2 ⟨_, hm, rfl⟩))
  | @jump b c hc _ ih => exact ih ((h.graph.succs b hb).2 c hc) fun x hx => hx

/-- A value that is needed has been defined on the way. -/
theorem Code.needed_def (h : Code f) {y b : Nat} {rest : List Nat} (hn : IR.Needed f (own f) y b rest) : ∀ (l t : List Nat), b ∈ f.allBbs → Walk f (b :: t) → f.body b = l ++ rest →
    InBody f y → void (f.insn y).op = false → (∃ c ∈ t, y ∈ f.body c) ∨ y ∈ l := by
  have home : InBody f y → ∀ {c : Nat}, f.parent y = c → y ∈ f.body c := by
    rintro ⟨d, hd, hy⟩ c e
    rw [← e, h.ok.tidy.parent d hd y hy]
    exact hy
  induction hn with
  | @use b s rest ho hp =>
    intro l t hb hw e hy hv
    have hd := h.ssa.uses b s (by rw [e]; simp) ho y hy hp t hw
    rcases List.mem_cons.1 hd with e1 | e1
    · have hyb := home hy e1
      have hno : y ∉ s :: rest := fun hm => by
        have := h.ordered b ⟨t, hw⟩ l s rest e ho y hm
        omega
      rw [e] at hyb
      exact .inr ((List.mem_append.1 hyb).resolve_right hno)
    · exact .inl ⟨_, e1, home hy rfl⟩
  | @skip b s rest hs _ ih =>
    intro l t hb hw e hy hv
    rcases ih (l ++ [s]) t hb hw (by simp [e]) hy hv with k | k
    · exact .inl k
    · rcases List.mem_append.1 k with k | k
      · exact .inr k
      · have := List.mem_singleton.1 k
        subst this
        exact absurd (by unfold own; rw [hv]; rfl) hs
  | @phi b c p hc hp ho hm =>
    intro l t hb hw e hy hv
    rcases List.mem_cons.1 (h.ssa.phiUses c p hp ho b y hm hy t hw) with e1 | e1
    · have := home hy e1
      rw [e, List.append_nil] at this
      exact .inr this
    · exact .inl ⟨_, e1, home hy rfl⟩
  | @jump b c hc _ ih =>
    intro l t hb hw e hy hv
    rcases ih [] (b :: t) ((h.graph.succs b hb).2 c hc) (.step b c t hw ((h.route b hb).edge hc)) rfl hy hv with ⟨d, hd, k⟩ | k
    · rcases List.mem_cons.1 hd with e1 | e1
      · rw [e1, e, List.append_nil] at k
        exact .inr k
      · exact .inl ⟨d, e1, k⟩
    · simp at k

theorem lifted_not {o : Op} (h : liftedOp o) : o ≠ .alloc ∧ o ≠ .allocarray ∧ o ≠ .load ∧ o ≠ .store ∧ o ≠ .throw ∧ o ≠ .getelemptr ∧ o ≠ .ecall := by
  rcases h with h | h | h | h | h
  · rw [h]; simp
  · cases o <;> first | exact Bool.noConfusion h | simp
  · rw [h]; simp
  · cases o <;> first | exact Bool.noConfusion h | simp
  · rw [h]; simp

/-- Values of the function are not variables or arrays. -/
theorem Code.plain (h : Code f) {y : Nat} (hy : Live f y) : (f.insn y).op ≠ .alloc ∧ (f.insn y).op ≠ .allocarray := by
  rcases hy with e | e | e
  · rcases (h.fixed y (.inl e)).2 with k | k <;> rw [k] <;> simp
  · rcases (h.fixed y (.inr e)).2 with k | k <;> rw [k] <;> simp
  · have := lifted_not (h.insn y e).op
    exact ⟨this.1, this.2.1⟩

theorem Code.control_ends (h : Code f) {b : Nat} {pre r : List Nat} {z : Nat} (e : f.body b = pre ++ z :: r) (hc : Loc.control (f.insn z).op = true) (hp : (f.insn z).op ≠ .phi) : r = [] := by
  refine h.last b pre z r e ?_
  revert hc hp
  generalize (f.insn z).op = o
  cases o <;> simp [Loc.control, ends, Norm.Op.condJmp]

theorem Code.flow (h : Code f) {R : List Nat} (hR : ∀ b, b ∈ R ↔ b ∈ f.allBbs) : Loc.Flow f R where
  entry := (hR _).2 h.entry
  succs := fun a ha b hb => (hR b).2 ((h.graph.succs a ((hR a).1 ha)).2 b hb)
  ja := fun b hb x hx ho => by
    obtain ⟨A, B, e⟩ := List.append_of_mem hx
    have he : ends (f.insn x).op = true := by rw [ho]; rfl
    have hB := h.last b A x B e he
    have := (h.route b ((hR b).1 hb)).jumps (h.ok.tidy.nodup b ((hR b).1 hb)) e he hB
    unfold SuccsOk at this
    simp [ho, Norm.Op.condJmp] at this
    rw [this]; simp
  cond := fun b hb x hx ho => by
    obtain ⟨A, B, e⟩ := List.append_of_mem hx
    obtain ⟨he, _, c1, c2⟩ := cond_ends ho
    have hB := h.last b A x B e he
    have := (h.route b ((hR b).1 hb)).jumps (h.ok.tidy.nodup b ((hR b).1 hb)) e he hB
    unfold SuccsOk at this
    simp [ho, c1, c2] at this
    rw [this]; simp
  last := fun b hb pre z r e hc hp => h.control_ends e hc hp

theorem Code.refs_live (h : Code f) {x y : Nat} (hx : InBody f x) (hr : 0 < refs (f.insn x) y) : Live f y := h.ok.tidy.closed x y (.inr (.inr hx)) hr

/-- Such a function can be lowered if helpers are called with as many arguments as they take. -/
theorem Code.ready (h : Code f) {R : List Nat} (hl : LaidOut f R) (h6 : ∀ x, InBody f x → (f.insn x).op = .call → (f.insn x).aux ≠ 6) : Ready f R where
  tidy := h.ok.tidy
  users := listed h.ok.users
  flow := h.flow hl.mem
  blocks := fun b hb => (hl.mem b).1 hb
  nodup := hl.nodup
  entry := by
    unfold phisOf
    cases hb : f.body f.entry with
    | nil => rfl
    | cons x r => rw [List.takeWhile_cons_of_neg]; simp [h.ssa.entry x (by rw [hb]; simp)]
  loop := fun b hb hm => by
    have := (h.graph.sym b ((hl.mem b).1 hb) f.entry h.entry).1 hm
    rw [h.first] at this
    simp at this
  five := h.five
  distinct := h.distinct
  sp := h.sp
  fixed := fun y hy => (h.plain (hy.imp id .inl)).1
  vars := fun b hb x hx a ha hr => absurd ha (h.plain (h.refs_live ⟨b, (hl.mem b).1 hb, hx⟩ hr)).1
  access := fun b hb x hx ho => by
    have := lifted_not (h.insn x ⟨b, (hl.mem b).1 hb, hx⟩).op
    rcases ho with ho | ho
    · exact absurd ho this.2.2.1
    · exact absurd ho this.2.2.2.1
  defined := fun y hn => by
    rcases h.needed_nice h.entry (fun x hx => hx) hn with e | e | ⟨e1, e2⟩
    · exact .inl e
    · exact .inr (.inl e)
    · rcases h.needed_def hn [] [] h.entry .entry rfl e1 e2 with ⟨c, hc, _⟩ | hc
      · simp at hc
      · simp at hc
  arity := fun b hb x hx ho => by
    have hx' : InBody f x := ⟨b, (hl.mem b).1 hb, hx⟩
    exact (h.insn x hx').call ho (h6 x hx' ho)

/-- No variable is read. -/
theorem Code.no_var (h : Code f) {a b : Nat} {rest : List Nat} (hn : Loc.Needed f Loc.virt (Loc.virt a) b rest) : b ∈ f.allBbs → (∀ x ∈ rest, x ∈ f.body b) → (f.insn a).op ≠ .alloc := by
  induction hn with
  | @read b s rest hm =>
    intro hb hr
    rcases Loc.reads_refs hm with hq | ⟨y, e, hp⟩
    · unfold Loc.virt at hq; omega
    · rw [Loc.virt_inj e]
      exact (h.plain (h.refs_live ⟨b, hb, hr s (by simp)⟩ hp)).1
  | skip _ _ ih => exact fun hb hr => ih hb fun x hx => hr x (by simp [hx])
  | @phi b c x y hc hx hm e =>
    intro hb _
    rw [Loc.virt_inj e]
    have hxb : x ∈ f.body c := by rw [← phisOf_append f c]; exact List.mem_append_left _ hx
    refine (h.plain (h.refs_live ⟨c, (h.graph.succs b hb).2 c hc, hxb⟩ ?_)).1
    rw [Edit.refs_eq]
    refine List.count_pos_iff.2 ?_
    unfold operands
    rw [if_pos (phisOf_phi hx)]
    exact List.mem_append_left _ (List.mem_append_right _ (List.mem_map.2 ⟨_, hm, rfl⟩))
  | @edge b c hc _ _ ih =>
    intro hb _
    refine ih ((h.graph.succs b hb).2 c hc) fun x hx => ?_
    rw [← phisOf_append f c]
    exact List.mem_append_right _ hx

theorem Code.neat (h : Code f) {R : List Nat} (hl : LaidOut f R) : Neat f R where
  fixed := fun y hy z => by rw [Edit.refs_eq, (h.fixed y hy).1]; rfl
  front := fun b _ x hx => h.ok.phis b x hx
  phis := fun x hx ho => List.length_eq_zero_iff.1 ((h.insn x hx).chk.arity 0 (by rw [ho]; rfl))
  labels := fun x hx o ho => (h.insn x hx).labels o ho
  access := fun x hx ho => by
    have := lifted_not (h.insn x hx).op
    rcases ho with ho | ho
    · exact absurd ho this.2.2.1
    · exact absurd ho this.2.2.2.1
  stored := fun a ha hn => h.no_var hn h.entry (fun x hx => hx) ha
  raws := fun b hb x hx ho => by
    have hx' : InBody f x := ⟨b, (hl.mem b).1 hb, by rw [← phisOf_append f b]; exact List.mem_append_right _ hx⟩
    exact List.length_eq_zero_iff.1 ((h.insn x hx').chk.arity 0 (by rw [ho]; rfl))

theorem Code.fits (h : Code f) {R : List Nat} (hl : LaidOut f R) {d : BitVec 16} (hF : ∀ x, InBody f x → Form f.sp d .rawoff (f.insn x)) : Fits f R d where
  insn := fun x ⟨b, hb, hx⟩ => by
    have hx' : InBody f x := ⟨b, (hl.mem b).1 hb, hx⟩
    have k := h.insn x hx'
    have no := lifted_not k.op
    have live : ∀ y, .insn y ∈ operands (f.insn x) → Live f y := fun y hy => h.refs_live hx' (by rw [Edit.refs_eq]; exact List.count_pos_iff.2 hy)
    refine ⟨no.2.2.2.2.1, fun y hy e => absurd e (h.plain (live y hy)).1, fun y hy e => absurd e (h.plain (live y hy)).2, fun e => absurd e no.2.2.2.2.2.1, ?_, fun hr y e => ?_, hF x hx'⟩
    · intro hr k' c t u e
      cases hF x hx' with
      | other h1 h2 => exact h2.1 _ (by unfold operands; rw [if_pos hr]; simp) k' c t u e
      | access _ ha _ _ _ _ => rw [ha] at e; cases e
      | add _ _ _ ho _ _ => rw [ho] at hr; cases hr
    · rw [k.addr hr] at e; cases e
  dom := fun x ⟨b, hb, hx⟩ y hy => by
    have k := h.insn x ⟨b, (hl.mem b).1 hb, hx⟩
    rcases k.vals _ hy with ⟨k', c, e⟩ | ⟨y', e, hn⟩
    · cases e
    · cases e
      rcases hn with e | e | ⟨⟨c, hc, hyc⟩, e2⟩
      · exact .inl e
      · exact .inr (.inl e)
      · refine .inr (.inr ⟨⟨c, (hl.mem c).2 hc, hyc⟩, ?_⟩)
        revert e2
        generalize (f.insn y).op = o
        cases o <;> simp [void, Loc.hasResult, Loc.control, Norm.Op.condJmp]
  labels := fun x ⟨b, hb, hx⟩ _ o ho => (hl.mem _).2 ((h.insn x ⟨b, (hl.mem b).1 hb, hx⟩).labels o ho)
  args := fun y hy => (h.plain (.inr (.inl hy))).2
  early := fun a ⟨b, hb, ha⟩ ho => absurd ho (h.plain (.inr (.inr ⟨b, (hl.mem b).1 hb, ha⟩))).1
  sp := h.reg

theorem Code.cond (h : Code f) {R : List Nat} (hl : LaidOut f R) : ∀ b ∈ R, ∀ t e, lastOf f b = .cond t e → f.succs b = [t, e] := by
  intro b hb t e hx
  rcases (h.route b ((hl.mem b).1 hb)).last with ⟨t', h1, _⟩ | ⟨t', e', h1, h2⟩ | ⟨_, h2, _⟩
  · rw [hx] at h1; cases h1
  · rw [hx] at h1; cases h1; exact h2
  · exact absurd hx (h2 t e)

end Verif.Pipe
