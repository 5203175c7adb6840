import Verif.Show.Text
/-!
# The text of an instruction says what it is: instructions
-/
namespace Verif.Show
open Verif Verif.IR Verif.Edit
open Verif.Opts (Str)
open Verif.Tool (str dec hex int isHexDigit Stops dec_spec hex_spec dec_inj hex_inj int_inj int32_inj stops_lit stops_str num_ne)

/-- The text of a block. -/
def BlockLike (s : Str) : Prop := ∃ n, n < 10 ^ 20 ∧ s = str "b" ++ dec n

/-- Two lists of the same length with related elements. -/
def All2 {α β : Type} (P : α → β → Prop) : List α → List β → Prop
  | [], [] => True
  | a :: l, b :: m => P a b ∧ All2 P l m
  | _, _ => False

/-- The number of values of an instruction that has a meaning. -/
def arity (i : Insn) : Option Nat :=
  match i.op with
  | .alloc | .allocarray | .loadimm | .throw | .ja | .phi | .loadraw => some 0
  | .load | .neg | .htobe | .htole | .ret | .assign | .storeraw => some 1
  | .call => some i.vals.length
  | .reg | .ecall | .funarg => none
  | _ => some 2

/-- The listing shows all of the instruction: it has the usual number of values, constants are shown in full, what it names has a name, and the widths that are not shown (of `neg`, of
`assign`, of byte swaps) are the usual ones. -/
structure Says (nm bt : Nat → Str) (i : Insn) : Prop where
  vals : arity i = some i.vals.length
  told : ∀ v ∈ shown i, Told v
  names : ∀ x, .insn x ∈ shown i → NameLike (nm x)
  labels : i.op = .phi → ∀ o ∈ i.phi, BlockLike (bt o.1)
  jumps : i.op = .ja ∨ i.op.condJmp = true → BlockLike (bt i.bb1)
  other : i.op.condJmp = true → BlockLike (bt i.bb2)
  neg : i.op = .neg → i.aluOp = .w64
  copy : i.op = .assign → i.aluOp ≠ .w32
  swap : i.op = .htobe ∨ i.op = .htole → i.aux = 64

/-- The same instruction, but for names: what the meaning depends on. -/
structure IAlike (nm bt nm' bt' : Nat → Str) (i j : Insn) : Prop where
  op : i.op = j.op
  vals : All2 (VAlike nm nm') i.vals j.vals
  addr : raw i.op = true → VAlike nm nm' i.addr j.addr ∧ i.addrOff = j.addrOff ∧ i.vrType = j.vrType
  alu : (aluName i.op).isSome = true ∨ (jmpName i.op).isSome = true ∨ i.op = .neg → i.aluOp = j.aluOp
  copy : i.op = .assign → i.aluOp ≠ .w32 ∧ j.aluOp ≠ .w32
  aux : i.op = .call ∨ i.op = .htobe ∨ i.op = .htole → i.aux = j.aux
  imm : i.op = .loadimm → i.immKind = j.immKind ∧ i.imm64 = j.imm64
  phi : i.op = .phi → All2 (fun a b => bt a.1 = bt' b.1 ∧ VAlike nm nm' a.2 b.2) i.phi j.phi
  ja : i.op = .ja ∨ i.op.condJmp = true → bt i.bb1 = bt' j.bb1
  cond : i.op.condJmp = true → bt i.bb2 = bt' j.bb2

/-- What may stand behind the text of an instruction: nothing, or a remark. -/
def Ends (r : Str) : Prop := r = [] ∨ ∃ q, r = ' ' :: '/' :: q

theorem Ends.stop {r : Str} (h : Ends r) : Stop brk r := by
  intro c s e
  rcases h with h | ⟨q, h⟩ <;> rw [h] at e
  · cases e
  · injection e with e _
    rw [← e]; rfl

theorem Ends.stops {r : Str} (h : Ends r) : Stops r := by
  intro c e
  rcases h with h | ⟨q, h⟩ <;> rw [h] at e
  · cases e
  · injection e with e
    rw [← e]; rfl

theorem remark_ends (p : Pos) : Ends (remark p) := by
  cases p with
  | none => exact .inl rfl
  | some o => exact .inr ⟨_, rfl⟩

theorem block_free {s : Str} (h : BlockLike s) : Free s := by
  obtain ⟨n, hn, rfl⟩ := h
  exact Free.append (free_of (by decide)) (dec_free hn)

section
variable {nm bt nm' bt' : Nat → Str}

/-- An operand and what is behind it. -/
theorem tok_cut {v w : Val} {p p' : Pos} {r q : Str} (hp : PosOk p) (hp' : PosOk p') (h : ∀ x, v = .insn x → NameLike (nm x)) (h' : ∀ x, w = .insn x → NameLike (nm' x)) (ht : Told v) (ht' : Told w)
    (hr : Stop brk r) (hq : Stop brk q) (e : tok nm v p ++ r = tok nm' w p' ++ q) : VAlike nm nm' v w ∧ r = q := by
  obtain ⟨e1, e2⟩ := cut (tok_free h hp) (tok_free h' hp') hr hq e
  exact ⟨tok_val h h' ht ht' e1, e2⟩

/-- The first character of an operand. -/
theorem tok_head {v : Val} (p : Pos) (h : ∀ x, v = .insn x → NameLike (nm x)) (ht : Told v) : ∃ d s, tok nm v p = d :: s ∧ d ≠ ')' ∧ d ≠ '-' := by
  have key : ∃ d s, valText nm v = d :: s ∧ d ≠ ')' ∧ d ≠ '-' := by
    cases v with
    | const k c ct b =>
      cases k
      · obtain ⟨d, s, e, hd⟩ := const_head (c := c) (told_known ht)
        exact ⟨d, s, e, by rcases hd with hd | hd <;> subst hd <;> decide⟩
      · exact ⟨_, _, rfl, by decide⟩
      · exact ⟨_, _, rfl, by decide⟩
    | insn x =>
      obtain ⟨d, s, e, hd⟩ := name_head (h x rfl)
      exact ⟨d, s, e, by rcases hd with hd | hd | hd <;> subst hd <;> decide⟩
    | undef => exact ⟨_, _, rfl, by decide⟩
  obtain ⟨d, s, e, hd⟩ := key
  exact ⟨d, s ++ posText p, by unfold tok; rw [e]; rfl, hd⟩

/-! ## Arguments and phis -/

theorem args_inj {vp vp' : Nat → Pos} (hp : ∀ k, PosOk (vp k)) (hp' : ∀ k, PosOk (vp' k)) {r q : Str} (hr : Ends r) (hq : Ends q) : ∀ (vs ws : List Val) (v w : Val) (k : Nat),
    (∀ u ∈ v :: vs, Told u ∧ ∀ x, u = .insn x → NameLike (nm x)) → (∀ u ∈ w :: ws, Told u ∧ ∀ x, u = .insn x → NameLike (nm' x)) →
    tok nm v (vp k) ++ (argsText nm vp (k + 1) vs ++ (str ")" ++ r)) = tok nm' w (vp' k) ++ (argsText nm' vp' (k + 1) ws ++ (str ")" ++ q)) → All2 (VAlike nm nm') (v :: vs) (w :: ws)
  | [], [], v, w, k, hv, hw, e => by
    have hv0 := hv v (by simp)
    have hw0 := hw w (by simp)
    have e' : (tok nm v (vp k) ++ str ")") ++ r = (tok nm' w (vp' k) ++ str ")") ++ q := by
      rw [List.append_assoc, List.append_assoc]; exact e
    have f1 : Free (str ")") := free_of (by decide)
    have := (cut (Free.append (tok_free hv0.2 (hp k)) f1) (Free.append (tok_free hw0.2 (hp' k)) f1) hr.stop hq.stop e').1
    exact ⟨tok_val hv0.2 hw0.2 hv0.1 hw0.1 (List.append_cancel_right this), trivial⟩
  | [], u :: ws, v, w, k, hv, hw, e => by
    exfalso
    have hv0 := hv v (by simp)
    have hw0 := hw w (by simp)
    have e' : (tok nm v (vp k) ++ str ")") ++ r = tok nm' w (vp' k) ++ (str ", " ++ ((tok nm' u (vp' (k + 1)) ++ argsText nm' vp' (k + 1 + 1) ws) ++ (str ")" ++ q))) := by
      rw [List.append_assoc]; exact e
    have f1 : Free (str ")") := free_of (by decide)
    have := (cut (Free.append (tok_free hv0.2 (hp k)) f1) (tok_free hw0.2 (hp' k)) hr.stop (stop_lit (by decide)) e').2
    rcases hr with hr | ⟨s, hr⟩ <;> rw [hr] at this
    · cases this
    · injection this with this _
      revert this
      decide
  | u :: vs, [], v, w, k, hv, hw, e => by
    exfalso
    have hv0 := hv v (by simp)
    have hw0 := hw w (by simp)
    have e' : tok nm v (vp k) ++ (str ", " ++ ((tok nm u (vp (k + 1)) ++ argsText nm vp (k + 1 + 1) vs) ++ (str ")" ++ r))) = (tok nm' w (vp' k) ++ str ")") ++ q := by
      rw [List.append_assoc (tok nm' w (vp' k))]; exact e
    have f1 : Free (str ")") := free_of (by decide)
    have := (cut (tok_free hv0.2 (hp k)) (Free.append (tok_free hw0.2 (hp' k)) f1) (stop_lit (by decide)) hq.stop e').2
    rcases hq with hr | ⟨s, hr⟩ <;> rw [hr] at this
    · cases this
    · injection this with this _
      revert this
      decide
  | u :: vs, u' :: ws, v, w, k, hv, hw, e => by
    have hv0 := hv v (by simp)
    have hw0 := hw w (by simp)
    have e' : tok nm v (vp k) ++ (str ", " ++ (tok nm u (vp (k + 1)) ++ (argsText nm vp (k + 1 + 1) vs ++ (str ")" ++ r)))) =
        tok nm' w (vp' k) ++ (str ", " ++ (tok nm' u' (vp' (k + 1)) ++ (argsText nm' vp' (k + 1 + 1) ws ++ (str ")" ++ q)))) := by
      have h1 : argsText nm vp (k + 1) (u :: vs) = str ", " ++ (tok nm u (vp (k + 1)) ++ argsText nm vp (k + 1 + 1) vs) := rfl
      have h2 : argsText nm' vp' (k + 1) (u' :: ws) = str ", " ++ (tok nm' u' (vp' (k + 1)) ++ argsText nm' vp' (k + 1 + 1) ws) := rfl
      rw [h1, h2] at e
      simpa only [List.append_assoc] using e
    obtain ⟨h1, h2⟩ := tok_cut (hp k) (hp' k) hv0.2 hw0.2 hv0.1 hw0.1 (stop_lit (by decide)) (stop_lit (by decide)) e'
    exact ⟨h1, args_inj hp hp' hr hq vs ws u u' (k + 1) (fun x hx => hv x (List.mem_cons_of_mem _ hx)) (fun x hx => hw x (List.mem_cons_of_mem _ hx)) (List.append_cancel_left h2)⟩

theorem args0_inj {vp vp' : Nat → Pos} (hp : ∀ k, PosOk (vp k)) (hp' : ∀ k, PosOk (vp' k)) {r q : Str} (hr : Ends r) (hq : Ends q) (vs ws : List Val)
    (hv : ∀ u ∈ vs, Told u ∧ ∀ x, u = .insn x → NameLike (nm x)) (hw : ∀ u ∈ ws, Told u ∧ ∀ x, u = .insn x → NameLike (nm' x))
    (e : argsText nm vp 0 vs ++ (str ")" ++ r) = argsText nm' vp' 0 ws ++ (str ")" ++ q)) : All2 (VAlike nm nm') vs ws := by
  cases vs with
  | nil =>
    cases ws with
    | nil => trivial
    | cons w ws =>
      exfalso
      obtain ⟨d, s, e1, hd, -⟩ := tok_head (vp' 0) (hw w (by simp)).2 (hw w (by simp)).1
      have h2 : argsText nm' vp' 0 (w :: ws) = tok nm' w (vp' 0) ++ argsText nm' vp' 1 ws := rfl
      rw [h2, e1] at e
      injection e with e _
      exact hd e.symm
  | cons v vs =>
    have h1 : argsText nm vp 0 (v :: vs) = tok nm v (vp 0) ++ argsText nm vp 1 vs := rfl
    cases ws with
    | nil =>
      exfalso
      obtain ⟨d, s, e1, hd, -⟩ := tok_head (vp 0) (hv v (by simp)).2 (hv v (by simp)).1
      rw [h1, e1] at e
      injection e with e _
      exact hd e
    | cons w ws =>
      have h2 : argsText nm' vp' 0 (w :: ws) = tok nm' w (vp' 0) ++ argsText nm' vp' 1 ws := rfl
      rw [h1, h2, List.append_assoc, List.append_assoc] at e
      exact args_inj hp hp' hr hq vs ws v w 0 hv hw e

theorem phi_inj {vp vp' : Nat → Pos} (hp : ∀ k, PosOk (vp k)) (hp' : ∀ k, PosOk (vp' k)) {r q : Str} (hr : Ends r) (hq : Ends q) : ∀ (os us : List (Nat × Val)) (k : Nat),
    (∀ o ∈ os, Told o.2 ∧ (∀ x, o.2 = .insn x → NameLike (nm x)) ∧ BlockLike (bt o.1)) → (∀ o ∈ us, Told o.2 ∧ (∀ x, o.2 = .insn x → NameLike (nm' x)) ∧ BlockLike (bt' o.1)) →
    phiText nm bt vp k os ++ r = phiText nm' bt' vp' k us ++ q → All2 (fun a b => bt a.1 = bt' b.1 ∧ VAlike nm nm' a.2 b.2) os us
  | [], [], _, _, _, _ => trivial
  | [], u :: us, k, _, _, e => by
    exfalso
    have e' : r = ' ' :: '<' :: _ := e
    rcases hr with hr | ⟨s, hr⟩ <;> rw [hr] at e'
    · cases e'
    · injection e' with _ e'
      injection e' with e' _
      revert e'
      decide
  | o :: os, [], k, _, _, e => by
    exfalso
    have e' : ' ' :: '<' :: _ = q := e
    rcases hq with hr | ⟨s, hr⟩ <;> rw [hr] at e'
    · cases e'
    · injection e' with _ e'
      injection e' with e' _
      revert e'
      decide
  | o :: os, u :: us, k, ho, hu, e => by
    have e' : str " <" ++ (bt o.1 ++ (str " -> " ++ (tok nm o.2 (vp k) ++ (str ">" ++ (phiText nm bt vp (k + 1) os ++ r))))) =
        str " <" ++ (bt' u.1 ++ (str " -> " ++ (tok nm' u.2 (vp' k) ++ (str ">" ++ (phiText nm' bt' vp' (k + 1) us ++ q))))) := by
      simpa only [phiText, List.append_assoc] using e
    obtain ⟨o1, o2, o3⟩ := ho o (by simp)
    obtain ⟨u1, u2, u3⟩ := hu u (by simp)
    obtain ⟨h1, h2⟩ := cut (block_free o3) (block_free u3) (stop_lit (by decide)) (stop_lit (by decide)) (List.append_cancel_left e')
    obtain ⟨h3, h4⟩ := tok_cut (hp k) (hp' k) o2 u2 o1 u1 (stop_lit (by decide)) (stop_lit (by decide)) (List.append_cancel_left h2)
    exact ⟨⟨h1, h3⟩, phi_inj hp hp' hr hq os us (k + 1) (fun x hx => ho x (List.mem_cons_of_mem _ hx)) (fun x hx => hu x (List.mem_cons_of_mem _ hx)) (List.append_cancel_left h4)⟩

/-! ## Addresses, types -/

/-- A space or the end of a line. -/
def gap (c : Char) : Bool := c = ' ' || c = '\n'

theorem gap_brk {c : Char} (h : brk c = false) : gap c = false := by
  simp only [brk, Bool.or_eq_false_iff] at h
  simp only [gap, Bool.or_eq_false_iff]
  exact ⟨h.1.1.1.1.1, h.1.1.1.2⟩

theorem gap_of {s : Str} (h : s.all (fun c => !gap c) = true) : ∀ c ∈ s, gap c = false := by
  intro c hc
  have := List.all_eq_true.1 h c hc
  simpa using this

theorem off_chars (o : BitVec 16) (k : CKind) : ∀ c ∈ offText o k, gap c = false := by
  have hb : o.toInt.natAbs < 10 ^ 20 := by have := BitVec.toInt_lt (x := o); have := BitVec.le_toInt (x := o); omega
  unfold offText
  split
  · intro c h; cases h
  · intro c h
    rcases List.mem_append.1 h with h | h
    · exact gap_of (by decide) c h
    · rcases List.mem_append.1 h with h | h
      · exact gap_brk (int_free hb c h)
      · cases k
        · cases h
        · exact gap_of (by decide) c h
        · exact gap_of (by decide) c h

theorem off_stop (o : BitVec 16) (k : CKind) : Stop brk (offText o k) := by
  unfold offText
  split
  · exact stop_nil
  · exact stop_lit (by decide)

theorem off_inj {o o' : BitVec 16} {k k' : CKind} (e : offText o k = offText o' k') : o = o' := by
  have hb : o.toInt.natAbs < 10 ^ 20 := by have := BitVec.toInt_lt (x := o); have := BitVec.le_toInt (x := o); omega
  have hb' : o'.toInt.natAbs < 10 ^ 20 := by have := BitVec.toInt_lt (x := o'); have := BitVec.le_toInt (x := o'); omega
  have st : ∀ k : CKind, Stops (offMark k) := by
    intro k
    cases k
    · intro c h; cases h
    · exact stops_lit (l := str "(+off)") (r := []) (by decide)
    · exact stops_lit (l := str "(-off)") (r := []) (by decide)
  unfold offText at e
  by_cases h1 : o = 0 <;> by_cases h2 : o' = 0
  · rw [h1, h2]
  · rw [if_pos h1, if_neg h2] at e; cases e
  · rw [if_neg h1, if_pos h2] at e; cases e
  · rw [if_neg h1, if_neg h2] at e
    exact BitVec.eq_of_toInt_eq (int_inj hb hb' (st k) (st k') (List.append_cancel_left e)).1

theorem addr_cut {v w : Val} {p p' : Pos} {o o' : BitVec 16} {k k' : CKind} {r q : Str} (hp : PosOk p) (hp' : PosOk p') (h : ∀ x, v = .insn x → NameLike (nm x))
    (h' : ∀ x, w = .insn x → NameLike (nm' x)) (ht : Told v) (ht' : Told w) (hr : Stop gap r) (hq : Stop gap q)
    (e : (tok nm v p ++ offText o k) ++ r = (tok nm' w p' ++ offText o' k') ++ q) : VAlike nm nm' v w ∧ o = o' ∧ r = q := by
  have c1 : ∀ c ∈ tok nm v p ++ offText o k, gap c = false := by
    intro c hc
    rcases List.mem_append.1 hc with hc | hc
    · exact gap_brk (tok_free h hp c hc)
    · exact off_chars o k c hc
  have c2 : ∀ c ∈ tok nm' w p' ++ offText o' k', gap c = false := by
    intro c hc
    rcases List.mem_append.1 hc with hc | hc
    · exact gap_brk (tok_free h' hp' c hc)
    · exact off_chars o' k' c hc
  obtain ⟨e1, e2⟩ := cut c1 c2 hr hq e
  obtain ⟨h1, h2⟩ := tok_cut hp hp' h h' ht ht' (off_stop o k) (off_stop o' k') e1
  exact ⟨h1, off_inj h2, e2⟩

theorem vr_free {t : VrTy} {s : Str} (h : vrText t = .ok s) : Free s := by
  cases t <;> cases h <;> exact free_of (by decide)

theorem vr_inj {t t' : VrTy} {s : Str} (h : vrText t = .ok s) (h' : vrText t' = .ok s) : t = t' := by
  cases t <;> cases t' <;> first | rfl | (rw [← h] at h'; exact absurd h' (by decide)) | (cases h) | (cases h')

theorem imm_inj {n m : Nat} {s s' r q : Str} (h : immText n = .ok s) (h' : immText m = .ok s') (e : s ++ (str ")" ++ r) = s' ++ (str ")" ++ q)) : n = m ∧ r = q := by
  have key : ∀ {n s}, immText n = .ok s → n < 7 ∧ ∀ c ∈ s, decide (c = ')') = false := by
    intro n s h
    unfold immText at h
    split at h
    case h_8 => cases h
    all_goals
      cases h
      refine ⟨by decide, ?_⟩
      intro c hc
      revert c
      decide
  obtain ⟨e1, e2⟩ := cut (D := fun c => decide (c = ')')) (key h).2 (key h').2 (stop_lit (by decide)) (stop_lit (by decide)) e
  subst e1
  refine ⟨?_, List.append_cancel_left e2⟩
  have h7 := (key h).1
  have h7' := (key h').1
  have : ∀ n < 7, ∀ m < 7, immText n = immText m → n = m := by decide
  exact this n h7 m h7' (h.trans h'.symm)

theorem wid_inj {a b : AluTy} {r q : Str} (e : widText a ++ r = widText b ++ q) : a = b ∧ r = q := by
  cases a <;> cases b <;> first
    | exact ⟨rfl, List.append_cancel_left e⟩
    | (exfalso
       injection e with _ e
       injection e with e _
       revert e
       decide)

end

end Verif.Show
