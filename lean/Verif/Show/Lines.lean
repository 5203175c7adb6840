import Verif.Show.Same
import Verif.Show.Tag
import Verif.Tool.ListingProps
/-!
# The lines of a listing
-/
namespace Verif.Show
open Verif Verif.IR Verif.Edit
open Verif.Opts (Str)
open Verif.Tool (str dec hex int isHexDigit Stops dec_spec hex_spec dec_inj hex_inj int_inj int32_inj stops_lit stops_str num_ne cut_line)

/-! ## Lines have no ends inside -/

def NL (s : Str) : Prop := ∀ c ∈ s, (c == '\n') = false

theorem NL.append {a b : Str} (ha : NL a) (hb : NL b) : NL (a ++ b) := fun c hc => (List.mem_append.1 hc).elim (ha c) (hb c)

theorem nl_lit {s : Str} (h : s.all (fun c => !(c == '\n')) = true) : NL s := fun c hc => by
  have := List.all_eq_true.1 h c hc
  simpa using this

theorem Free.nl {s : Str} (h : Free s) : NL s := fun c hc => by
  have := h c hc
  simp only [brk, Bool.or_eq_false_iff, decide_eq_false_iff_not] at this
  simpa using this.1.1.1.2

theorem NL.not {s : Str} (h : NL s) : '\n' ∉ s := fun hm => by have := h _ hm; simp at this

variable {nm bt : Nat → Str} {vp : Nat → Pos} {ap : Pos} {i : Insn}

theorem off_nl (o : BitVec 16) (k : CKind) : NL (offText o k) := by
  unfold offText
  split
  · exact nl_lit rfl
  · have h : o.toInt.natAbs < 10 ^ 20 := by have := o.toInt_lt; have := o.le_toInt; omega
    refine NL.append (nl_lit rfl) (NL.append (int_free h).nl ?_)
    cases k <;> exact nl_lit rfl

theorem args_nl (hp : ∀ k, PosOk (vp k)) : ∀ (vs : List Val) (k : Nat), (∀ v ∈ vs, ∀ x, v = .insn x → NameLike (nm x)) → NL (argsText nm vp k vs)
  | [], _, _ => nl_lit rfl
  | v :: vs, k, h => by
    refine NL.append ?_ (NL.append (tok_free (h v (by simp)) (hp k)).nl (args_nl hp vs (k + 1) fun w hw => h w (by simp [hw])))
    split <;> exact nl_lit rfl

theorem phi_nl (hp : ∀ k, PosOk (vp k)) : ∀ (os : List (Nat × Val)) (k : Nat), (∀ o ∈ os, (∀ x, o.2 = .insn x → NameLike (nm x)) ∧ BlockLike (bt o.1)) → NL (phiText nm bt vp k os)
  | [], _, _ => nl_lit rfl
  | o :: os, k, h => by
    refine NL.append (nl_lit rfl) (NL.append (block_free (h o (by simp)).2).nl (NL.append (nl_lit rfl) (NL.append (tok_free (h o (by simp)).1 (hp k)).nl (NL.append (nl_lit rfl) ?_))))
    exact phi_nl hp os (k + 1) fun w hw => h w (by simp [hw])

theorem alu_nl (hp : ∀ k, PosOk (vp k)) (h : Says nm bt i) (hs : shown i = i.vals.take 2) {name t : Str} (hn : NL name) (e : aluText nm vp i name = .ok t) : NL t := by
  unfold aluText at e
  split at e
  · next v w r hv =>
    injection e with e
    subst e
    rw [hv] at hs
    have a := (h.operand (v := v) (by rw [hs]; simp)).2
    have b := (h.operand (v := w) (by rw [hs]; simp)).2
    refine NL.append hn (NL.append ?_ (NL.append (tok_free a (hp 0)).nl (NL.append (nl_lit rfl) (NL.append (tok_free b (hp 1)).nl (nl_lit rfl)))))
    cases i.aluOp <;> exact nl_lit rfl
  · cases e

theorem first_nl (hp : ∀ k, PosOk (vp k)) (h : Says nm bt i) (hs : ∀ v r, i.vals = v :: r → v ∈ shown i) {l t : Str} (hn : NL l) (e : (first i fun v => l ++ tok nm v (vp 0)) = .ok t) : NL t := by
  unfold first at e
  split at e
  · next v r hv =>
    injection e with e
    subst e
    exact NL.append hn (tok_free (h.operand (hs v r hv)).2 (hp 0)).nl
  · cases e

theorem text_nl {s : Str} (hp : ∀ k, PosOk (vp k)) (ha : PosOk ap) (h : Says nm bt i) (e : insnText nm bt vp ap i = .ok s) : NL s := by
  have one : ∀ {v r}, i.vals = v :: r → v ∈ i.vals.take 1 := fun h => by rw [h]; simp
  have ar := h.vals
  cases ho : i.op with
  | alloc =>
    simp only [insnText, ho] at e
    obtain ⟨t, et, e⟩ := Out.bind_eq_ok.1 e
    injection e with e
    subst e
    exact NL.append (nl_lit rfl) (vr_free et).nl
  | allocarray =>
    simp only [insnText, ho] at e
    obtain ⟨t, et, e⟩ := Out.bind_eq_ok.1 e
    injection e with e
    subst e
    have : i.aux.toNat < 10 ^ 20 := by have := i.aux.isLt; omega
    exact NL.append (nl_lit rfl) (NL.append (vr_free et).nl (NL.append (nl_lit rfl) (NL.append (dec_free this).nl (nl_lit rfl))))
  | store =>
    simp only [insnText, ho] at e
    have hs : shown i = i.vals.take 2 := by simp [shown, ho]
    split at e
    · next v w r hv =>
      injection e with e
      subst e
      rw [hv] at hs
      exact NL.append (nl_lit rfl) (NL.append (tok_free (h.operand (v := v) (by rw [hs]; simp)).2 (hp 0)).nl (NL.append (nl_lit rfl) (tok_free (h.operand (v := w) (by rw [hs]; simp)).2 (hp 1)).nl))
    · cases e
  | getelemptr =>
    simp only [insnText, ho] at e
    have hs : shown i = i.vals.take 2 := by simp [shown, ho]
    split at e
    · next v w r hv =>
      injection e with e
      subst e
      rw [hv] at hs
      exact NL.append (nl_lit rfl) (NL.append (tok_free (h.operand (v := w) (by rw [hs]; simp)).2 (hp 1)).nl (NL.append (nl_lit rfl) (tok_free (h.operand (v := v) (by rw [hs]; simp)).2 (hp 0)).nl))
    · cases e
  | load => simp only [insnText, ho] at e; exact first_nl hp h (fun v r hv => by simp only [shown, ho]; exact one hv) (nl_lit rfl) e
  | neg => simp only [insnText, ho] at e; exact first_nl hp h (fun v r hv => by simp only [shown, ho]; exact one hv) (nl_lit rfl) e
  | htobe => simp only [insnText, ho] at e; exact first_nl hp h (fun v r hv => by simp only [shown, ho]; exact one hv) (nl_lit rfl) e
  | htole => simp only [insnText, ho] at e; exact first_nl hp h (fun v r hv => by simp only [shown, ho]; exact one hv) (nl_lit rfl) e
  | assign => simp only [insnText, ho] at e; exact first_nl (l := []) hp h (fun v r hv => by simp only [shown, ho]; exact one hv) (nl_lit rfl) e
  | loadraw =>
    simp only [insnText, ho] at e
    obtain ⟨t, et, e⟩ := Out.bind_eq_ok.1 e
    injection e with e
    subst e
    have := (h.operand (v := i.addr) (by simp [shown, ho])).2
    exact NL.append (nl_lit rfl) (NL.append (vr_free et).nl (NL.append (nl_lit rfl) (NL.append (tok_free this ha).nl (off_nl _ _))))
  | storeraw =>
    simp only [insnText, ho] at e
    obtain ⟨t, et, e⟩ := Out.bind_eq_ok.1 e
    have this := (h.operand (v := i.addr) (by simp [shown, ho])).2
    have hl : ∀ v, str "storeraw " ++ (t ++ (str " " ++ ((tok nm i.addr ap ++ offText i.addrOff i.addrKind) ++ (str " " ++ tok nm v (vp 0))))) =
        (str "storeraw " ++ (t ++ (str " " ++ ((tok nm i.addr ap ++ offText i.addrOff i.addrKind) ++ str " ")))) ++ tok nm v (vp 0) := fun v => by simp only [List.append_assoc]
    simp only [hl] at e
    refine first_nl hp h (fun v r hv => by simp only [shown, ho]; exact List.mem_cons_of_mem _ (one hv)) ?_ e
    exact NL.append (nl_lit rfl) (NL.append (vr_free et).nl (NL.append (nl_lit rfl) (NL.append (NL.append (tok_free this ha).nl (off_nl _ _)) (nl_lit rfl))))
  | loadimm =>
    simp only [insnText, ho] at e
    obtain ⟨t, et, e⟩ := Out.bind_eq_ok.1 e
    injection e with e
    subst e
    have ht : NL t := by
      unfold immText at et
      split at et <;> first | (injection et with et; subst et; exact nl_lit rfl) | cases et
    exact NL.append (nl_lit rfl) (NL.append ht (NL.append (nl_lit rfl) (hex_free i.imm64.isLt).nl))
  | call =>
    simp only [insnText, ho] at e
    injection e with e
    subst e
    have h1 : i.aux.toInt.natAbs < 10 ^ 20 := by have := i.aux.toInt_lt; have := i.aux.le_toInt; omega
    exact NL.append (nl_lit rfl) (NL.append (int_free h1).nl (NL.append (nl_lit rfl) (NL.append (args_nl hp _ _ fun v hv => (h.operand (by simp only [shown, ho]; exact hv)).2) (nl_lit rfl))))
  | ret =>
    simp only [insnText, ho] at e
    injection e with e
    subst e
    refine NL.append (nl_lit rfl) ?_
    split
    · next v r hv => exact (tok_free (h.operand (v := v) (by simp only [shown, ho]; exact one hv)).2 (hp 0)).nl
    · exact nl_lit rfl
  | throw =>
    simp only [insnText, ho] at e
    injection e with e
    subst e
    exact nl_lit rfl
  | ja =>
    simp only [insnText, ho] at e
    injection e with e
    subst e
    exact NL.append (nl_lit rfl) (block_free (h.jumps (.inl ho))).nl
  | phi =>
    simp only [insnText, ho] at e
    injection e with e
    subst e
    refine NL.append (nl_lit rfl) (phi_nl hp _ _ fun o hm => ⟨(h.operand (v := o.2) ?_).2, h.labels ho o hm⟩)
    simp only [shown, ho]; exact List.mem_map_of_mem hm
  | reg | ecall | funarg => simp [arity, ho] at ar
  | add | sub | mul | div | or | and | lsh | arsh | rsh | mod | xor =>
    simp only [insnText, ho, aluName] at e
    exact alu_nl hp h (by simp [shown, ho]) (nl_lit rfl) e
  | jeq | jgt | jge | jlt | jle | jne | jsge | jsle | jsgt | jslt =>
    simp only [insnText, ho, aluName, jmpName] at e
    obtain ⟨t, et, e⟩ := Out.bind_eq_ok.1 e
    injection e with e
    subst e
    have hc : i.op.condJmp = true := by rw [ho]; rfl
    exact NL.append (alu_nl hp h (by simp [shown, ho]) (nl_lit rfl) et) (NL.append (block_free (h.jumps (.inr hc))).nl (NL.append (nl_lit rfl) (block_free (h.other hc)).nl))

/-! ## Functions whose listing shows all -/

/-- The listing of the blocks `R` shows all of them. -/
structure Clear (f : Fn) (t : Tags) (e : Extra) (R : List Nat) : Prop where
  once : Once f t
  fits : t.cnt ≤ 2 ^ 64 ∧ t.bcnt ≤ 2 ^ 64
  blocks : ∀ b ∈ R, (t.bid b).isSome = true
  says : ∀ b ∈ R, ∀ x ∈ f.body b, Says (nameOf f t e) (bbName t e) (f.insn x)
  pos : ∀ x, PosOk (e.pos x) ∧ (∀ k, PosOk (e.vpos x k)) ∧ PosOk (e.apos x)

variable {f g : Fn} {t t' : Tags} {e e' : Extra} {R S : List Nat}

theorem remark_nl {p : Pos} (h : PosOk p) : NL (remark p) := by
  cases p with
  | none => exact nl_lit rfl
  | some o => exact NL.append (nl_lit rfl) (pos_free h).nl

theorem Clear.num (h : Clear f t e R) {b x : Nat} (hb : b ∈ R) (hx : x ∈ f.body b) (hv : isVoid (f.insn x).op = false) : ∃ k, t.id x = some k ∧ k < 10 ^ 20 := by
  obtain ⟨k, hk⟩ := Option.isSome_iff_exists.1 (h.once.all b (h.blocks b hb) x hx hv)
  exact ⟨k, hk, by have := (h.once.small x k hk).1; have := h.fits.1; omega⟩

theorem Clear.block (h : Clear f t e R) {b : Nat} (hb : b ∈ R) : ∃ k, t.bid b = some k ∧ k < 10 ^ 20 := by
  obtain ⟨k, hk⟩ := Option.isSome_iff_exists.1 (h.blocks b hb)
  exact ⟨k, hk, by have := h.once.bsmall b k hk; have := h.fits.2; omega⟩

theorem line_nl (h : Clear f t e R) {b x : Nat} (hb : b ∈ R) (hx : x ∈ f.body b) {w : Str} (k : insnLine f t e x = .ok w) : NL w := by
  obtain ⟨s, es, k⟩ := Out.bind_eq_ok.1 k
  injection k with k
  subst k
  obtain ⟨p1, p2, p3⟩ := h.pos x
  refine NL.append (nl_lit rfl) (NL.append ?_ (NL.append (text_nl p2 p3 (h.says b hb x hx) es) (remark_nl p1)))
  split
  · exact nl_lit rfl
  · next hv =>
    obtain ⟨k, hk, hk'⟩ := h.num hb hx (by simpa using hv)
    unfold idText
    rw [hk]
    exact NL.append (NL.append (nl_lit rfl) (dec_free hk').nl) (nl_lit rfl)

theorem head_nl (h : Clear f t e R) {b : Nat} (hb : b ∈ R) : NL (headLine t e b) := by
  obtain ⟨k, hk, hk'⟩ := h.block hb
  unfold headLine
  rw [hk]
  have : (e.flag b).toNat < 2 ^ 64 := by have := (e.flag b).isLt; omega
  exact NL.append (nl_lit rfl) (NL.append (dec_free hk').nl (NL.append (nl_lit rfl) (NL.append (hex_free this).nl (nl_lit rfl))))

/-- Equal lines. -/
theorem line_inj (h : Clear f t e R) (h' : Clear g t' e' S) {b x c y : Nat} (hb : b ∈ R) (hx : x ∈ f.body b) (hc : c ∈ S) (hy : y ∈ g.body c) {w : Str}
    (k : insnLine f t e x = .ok w) (k' : insnLine g t' e' y = .ok w) :
    IAlike (nameOf f t e) (bbName t e) (nameOf g t' e') (bbName t' e') (f.insn x) (g.insn y) ∧ (isVoid (f.insn x).op = false → ∃ k, t.id x = some k ∧ t'.id y = some k) := by
  obtain ⟨s, es, k⟩ := Out.bind_eq_ok.1 k
  obtain ⟨s', es', k'⟩ := Out.bind_eq_ok.1 k'
  injection k with k
  injection k' with k'
  obtain ⟨p1, p2, p3⟩ := h.pos x
  obtain ⟨q1, q2, q3⟩ := h'.pos y
  have sx := h.says b hb x hx
  have sy := h'.says c hc y hy
  have eq := List.append_cancel_left (k.trans k'.symm)
  have key := text_key sx (remark_ends (e.pos x)) es
  have key' := text_key sy (remark_ends (e'.pos y)) es'
  have vk : ∀ {o : Op} {z : Str}, isVoid o = true → Key o z → cls z = 0 := by
    intro o z hv hk
    cases hk with
    | assign a _ => rw [a] at hv; cases hv
    | neg a _ => rw [a] at hv; cases hv
    | word a _ => exact a
  have pc : ∀ (t : Tags) (x : Nat) (z : Str), cls ((idText t x ++ str " = ") ++ z) = 1 := fun t x z => by
    unfold idText
    rw [List.append_assoc, List.append_assoc]
    rfl
  cases hv : isVoid (f.insn x).op <;> cases hv' : isVoid (g.insn y).op
  · rw [hv, hv', if_neg (by simp), if_neg (by simp)] at eq
    obtain ⟨m, hm, hm'⟩ := h.num hb hx hv
    obtain ⟨m', hn, hn'⟩ := h'.num hc hy hv'
    unfold idText at eq
    rw [hm, hn] at eq
    simp only [List.append_assoc] at eq
    obtain ⟨a, b⟩ := dec_inj hm' hn' (stops_lit (l := str " = ") rfl) (stops_lit (l := str " = ") rfl) (List.append_cancel_left eq)
    exact ⟨text_inj p2 q2 p3 q3 sx sy (remark_ends _) (remark_ends _) es es' (List.append_cancel_left b), fun _ => ⟨m, hm, by rw [hn, a]⟩⟩
  · rw [hv, hv', if_neg (by simp), if_pos rfl, List.nil_append] at eq
    have := vk hv' key'
    rw [← eq, pc] at this
    cases this
  · rw [hv, hv', if_pos rfl, if_neg (by simp), List.nil_append] at eq
    have := vk hv key
    rw [eq, pc] at this
    cases this
  · rw [hv, hv', if_pos rfl, if_pos rfl, List.nil_append, List.nil_append] at eq
    exact ⟨text_inj p2 q2 p3 q3 sx sy (remark_ends _) (remark_ends _) es es' eq, fun k => by cases k⟩

/-! ## Putting lines together -/

theorem lines_inj : ∀ {l m : List Str}, (∀ s ∈ l, NL s) → (∀ s ∈ m, NL s) → (l.flatMap fun s => s ++ str "\n") = (m.flatMap fun s => s ++ str "\n") → l = m
  | [], [], _, _, _ => rfl
  | [], s :: m, _, _, e => by
    simp only [List.flatMap_nil, List.flatMap_cons] at e
    have := congrArg List.length e
    have n : (str "\n").length = 1 := by decide
    simp [n] at this <;> omega
  | s :: l, [], _, _, e => by
    simp only [List.flatMap_nil, List.flatMap_cons] at e
    have := congrArg List.length e
    have n : (str "\n").length = 1 := by decide
    simp [n] at this <;> omega
  | s :: l, u :: m, h, h', e => by
    simp only [List.flatMap_cons, List.append_assoc] at e
    obtain ⟨a, b⟩ := cut_line (h s (by simp)).not (h' u (by simp)).not e
    rw [a, lines_inj (fun s hs => h s (by simp [hs])) (fun s hs => h' s (by simp [hs])) b]

/-- Where a list changes. -/
theorem cutL {α : Type} {D : α → Bool} : ∀ {a b r q : List α}, (∀ c ∈ a, D c = false) → (∀ c ∈ b, D c = false) → (∀ c s, r = c :: s → D c = true) → (∀ c s, q = c :: s → D c = true) → a ++ r = b ++ q → a = b ∧ r = q
  | [], [], _, _, _, _, _, _, e => ⟨rfl, e⟩
  | [], c :: b, r, q, _, hb, hr, _, e => by
    have := hr c (b ++ q) e
    rw [hb c (by simp)] at this
    cases this
  | c :: a, [], r, q, ha, _, _, hq, e => by
    have := hq c (a ++ r) e.symm
    rw [ha c (by simp)] at this
    cases this
  | c :: a, d :: b, r, q, ha, hb, hr, hq, e => by
    rw [List.cons_append, List.cons_append] at e
    injection e with e1 e2
    obtain ⟨h1, h2⟩ := cutL (fun x hx => ha x (by simp [hx])) (fun x hx => hb x (by simp [hx])) hr hq e2
    exact ⟨by rw [e1, h1], h2⟩

/-- The first line of a block? -/
def isHead (s : Str) : Bool := match s with | 'b' :: _ => true | _ => false

theorem insnLines_spec : ∀ {xs : List Nat} {l : List Str}, insnLines f t e xs = .ok l → (∀ s ∈ l, isHead s = false) ∧ All2 (fun x s => insnLine f t e x = .ok s) xs l
  | [], l, k => by
    injection k with k
    subst k
    exact ⟨by simp, trivial⟩
  | x :: xs, l, k => by
    obtain ⟨s, es, k⟩ := Out.bind_eq_ok.1 k
    obtain ⟨r, er, k⟩ := Out.bind_eq_ok.1 k
    injection k with k
    subst k
    obtain ⟨a, b⟩ := insnLines_spec er
    refine ⟨fun u hu => ?_, es, b⟩
    rcases List.mem_cons.1 hu with rfl | hu
    · obtain ⟨s, -, k⟩ := Out.bind_eq_ok.1 es
      injection k with k
      subst k
      rfl
    · exact a u hu

/-- What the lines say about two lists of instructions. -/
def SameBody (f : Fn) (t : Tags) (e : Extra) (g : Fn) (t' : Tags) (e' : Extra) (xs ys : List Nat) : Prop :=
  All2 (fun x y => ∃ w, insnLine f t e x = .ok w ∧ insnLine g t' e' y = .ok w) xs ys

theorem all2_join {xs ys : List Nat} {l : List Str} (h : All2 (fun x s => insnLine f t e x = .ok s) xs l) (h' : All2 (fun x s => insnLine g t' e' x = .ok s) ys l) : SameBody f t e g t' e' xs ys := by
  induction xs generalizing ys l with
  | nil =>
    cases l with
    | nil => cases ys with
      | nil => trivial
      | cons => cases h'
    | cons => cases h
  | cons x xs ih =>
    cases l with
    | nil => cases h
    | cons s l => cases ys with
      | nil => cases h'
      | cons y ys => exact ⟨⟨s, h.1, h'.1⟩, ih h.2 h'.2⟩

theorem blockLines_head : ∀ {R : List Nat} {l : List Str}, blockLines f t e R = .ok l → ∀ c s, l = c :: s → isHead c = true
  | [], l, k, c, s, q => by
    injection k with k
    rw [q] at k; cases k
  | b :: bs, l, k, c, s, q => by
    obtain ⟨u, eu, k⟩ := Out.bind_eq_ok.1 k
    obtain ⟨r, er, k⟩ := Out.bind_eq_ok.1 k
    injection k with k
    rw [q] at k
    injection k with k _
    rw [← k]
    rfl

/-- The lines of blocks. -/
theorem blocks_inj {R S : List Nat} {l : List Str} (k : blockLines f t e R = .ok l) (k' : blockLines g t' e' S = .ok l) :
    All2 (fun b c => headLine t e b = headLine t' e' c ∧ SameBody f t e g t' e' (f.body b) (g.body c)) R S := by
  induction R generalizing S l with
  | nil =>
    injection k with k
    subst k
    cases S with
    | nil => trivial
    | cons c cs =>
      obtain ⟨u, eu, k'⟩ := Out.bind_eq_ok.1 k'
      obtain ⟨r, er, k'⟩ := Out.bind_eq_ok.1 k'
      cases k'
  | cons b bs ih =>
    obtain ⟨u, eu, k⟩ := Out.bind_eq_ok.1 k
    obtain ⟨r, er, k⟩ := Out.bind_eq_ok.1 k
    injection k with k
    subst k
    cases S with
    | nil => cases k'
    | cons c cs =>
      obtain ⟨u', eu', k'⟩ := Out.bind_eq_ok.1 k'
      obtain ⟨r', er', k'⟩ := Out.bind_eq_ok.1 k'
      injection k' with k'
      injection k' with k1 k2
      obtain ⟨a, a'⟩ := insnLines_spec eu
      obtain ⟨b, b'⟩ := insnLines_spec eu'
      obtain ⟨c1, c2⟩ := cutL a b (blockLines_head er) (blockLines_head er') k2.symm
      subst c1 c2
      exact ⟨⟨k1.symm, all2_join a' b'⟩, ih er er'⟩

theorem insnLines_nl (h : Clear f t e R) {b : Nat} (hb : b ∈ R) : ∀ {xs : List Nat} {l : List Str}, (∀ x ∈ xs, x ∈ f.body b) → insnLines f t e xs = .ok l → ∀ s ∈ l, NL s
  | [], l, _, k, s, hs => by
    injection k with k
    subst k
    cases hs
  | x :: xs, l, hx, k, s, hs => by
    obtain ⟨u, es, k⟩ := Out.bind_eq_ok.1 k
    obtain ⟨r, er, k⟩ := Out.bind_eq_ok.1 k
    injection k with k
    subst k
    rcases List.mem_cons.1 hs with rfl | hs
    · exact line_nl h hb (hx x (by simp)) es
    · exact insnLines_nl h hb (fun y hy => hx y (by simp [hy])) er s hs

theorem blockLines_nl (h : Clear f t e R) : ∀ {Q : List Nat} {l : List Str}, (∀ b ∈ Q, b ∈ R) → blockLines f t e Q = .ok l → ∀ s ∈ l, NL s
  | [], l, _, k, s, hs => by
    injection k with k
    subst k
    cases hs
  | b :: bs, l, hx, k, s, hs => by
    obtain ⟨u, eu, k⟩ := Out.bind_eq_ok.1 k
    obtain ⟨r, er, k⟩ := Out.bind_eq_ok.1 k
    injection k with k
    subst k
    rcases List.mem_cons.1 hs with rfl | hs
    · exact head_nl h (hx b (by simp))
    · rcases List.mem_append.1 hs with hs | hs
      · exact insnLines_nl h (hx b (by simp)) (fun y hy => hy) eu s hs
      · exact blockLines_nl h (fun y hy => hx y (by simp [hy])) er s hs

/-- The same listing: the same blocks with the same instructions, but for names. -/
structure Twin (f : Fn) (t : Tags) (e : Extra) (g : Fn) (t' : Tags) (e' : Extra) (b c : Nat) : Prop where
  name : ∃ k, t.bid b = some k ∧ t'.bid c = some k
  body : All2 (fun x y => IAlike (nameOf f t e) (bbName t e) (nameOf g t' e') (bbName t' e') (f.insn x) (g.insn y) ∧ (isVoid (f.insn x).op = false → ∃ k, t.id x = some k ∧ t'.id y = some k)) (f.body b) (g.body c)

theorem All2.imp {α β : Type} {P Q : α → β → Prop} : ∀ {l : List α} {m : List β}, All2 P l m → (∀ a ∈ l, ∀ b ∈ m, P a b → Q a b) → All2 Q l m
  | [], [], _, _ => trivial
  | a :: l, b :: m, h, k => ⟨k a (by simp) b (by simp) h.1, h.2.imp fun x hx y hy => k x (by simp [hx]) y (by simp [hy])⟩

theorem listing_inj (h : Clear f t e R) (h' : Clear g t' e' S) (ht : tag f = some t) (ht' : tag g = some t') {s : Str} (k : listing f R e = .ok s) (k' : listing g S e' = .ok s) :
    All2 (Twin f t e g t' e') R S := by
  simp only [listing, ht, ht'] at k k'
  obtain ⟨l, el, k⟩ := Out.bind_eq_ok.1 k
  obtain ⟨m, em, k'⟩ := Out.bind_eq_ok.1 k'
  injection k with k
  injection k' with k'
  have := lines_inj (blockLines_nl h (fun b hb => hb) el) (blockLines_nl h' (fun b hb => hb) em) (k.trans k'.symm)
  subst this
  refine (blocks_inj el em).imp fun b hb c hc ⟨a1, a2⟩ => ⟨?_, a2.imp fun x hx y hy ⟨w, w1, w2⟩ => line_inj h h' hb hx hc hy w1 w2⟩
  obtain ⟨m, hm, hm'⟩ := h.block hb
  obtain ⟨n, hn, hn'⟩ := h'.block hc
  unfold headLine at a1
  rw [hm, hn] at a1
  have := (dec_inj hm' hn' (stops_lit (l := str " (flag: 0x") rfl) (stops_lit (l := str " (flag: 0x") rfl) (List.append_cancel_left a1)).1
  exact ⟨m, hm, by rw [hn, this]⟩

end Verif.Show
