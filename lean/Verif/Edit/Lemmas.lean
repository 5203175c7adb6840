import Verif.Edit.Model
/-!
# Lemmas about the editing interface
-/
namespace Verif.Edit
open Verif Verif.IR
set_option linter.unusedSimpArgs false
set_option linter.unusedVariables false

@[simp] theorem upd_same {α : Type} (f : Nat → α) (k : Nat) (v : α) : upd f k v k = v := by simp [upd]
theorem upd_ne {α : Type} (f : Nat → α) {k j : Nat} (v : α) (h : j ≠ k) : upd f k v j = f j := by simp [upd, h]

/-! ## addUser, removeUser -/

theorem addUser_insn (f : Fn) (v x) : (addUser f v x).insn = f.insn := by cases v <;> rfl
theorem addUser_next (f : Fn) (v x) : (addUser f v x).next = f.next := by cases v <;> rfl
theorem addUser_parent (f : Fn) (v x) : (addUser f v x).parent = f.parent := by cases v <;> rfl
theorem addUser_body (f : Fn) (v x) : (addUser f v x).body = f.body := by cases v <;> rfl
theorem addUser_preds (f : Fn) (v x) : (addUser f v x).preds = f.preds := by cases v <;> rfl
theorem addUser_succs (f : Fn) (v x) : (addUser f v x).succs = f.succs := by cases v <;> rfl
theorem addUser_allBbs (f : Fn) (v x) : (addUser f v x).allBbs = f.allBbs := by cases v <;> rfl
theorem addUser_entry (f : Fn) (v x) : (addUser f v x).entry = f.entry := by cases v <;> rfl
theorem addUser_sp (f : Fn) (v x) : (addUser f v x).sp = f.sp := by cases v <;> rfl
theorem addUser_args (f : Fn) (v x) : (addUser f v x).args = f.args := by cases v <;> rfl
theorem addUser_users (f : Fn) (v x y) : (addUser f v x).users y = if v = .insn y then f.users y ++ [x] else f.users y := by
  cases v with
  | insn z =>
    simp only [addUser, upd]
    by_cases h : y = z
    · subst h; simp
    · rw [if_neg h, if_neg (by simpa using fun e => h e.symm)]
  | _ => simp [addUser]

theorem removeUser_insn (f : Fn) (v x) : (removeUser f v x).insn = f.insn := by cases v <;> rfl
theorem removeUser_next (f : Fn) (v x) : (removeUser f v x).next = f.next := by cases v <;> rfl
theorem removeUser_parent (f : Fn) (v x) : (removeUser f v x).parent = f.parent := by cases v <;> rfl
theorem removeUser_body (f : Fn) (v x) : (removeUser f v x).body = f.body := by cases v <;> rfl
theorem removeUser_preds (f : Fn) (v x) : (removeUser f v x).preds = f.preds := by cases v <;> rfl
theorem removeUser_succs (f : Fn) (v x) : (removeUser f v x).succs = f.succs := by cases v <;> rfl
theorem removeUser_allBbs (f : Fn) (v x) : (removeUser f v x).allBbs = f.allBbs := by cases v <;> rfl
theorem removeUser_entry (f : Fn) (v x) : (removeUser f v x).entry = f.entry := by cases v <;> rfl
theorem removeUser_sp (f : Fn) (v x) : (removeUser f v x).sp = f.sp := by cases v <;> rfl
theorem removeUser_args (f : Fn) (v x) : (removeUser f v x).args = f.args := by cases v <;> rfl
theorem removeUser_users (f : Fn) (v x y) : (removeUser f v x).users y = if v = .insn y then (f.users y).erase x else f.users y := by
  cases v with
  | insn z =>
    simp only [removeUser, upd]
    by_cases h : y = z
    · subst h; simp
    · rw [if_neg h, if_neg (by simpa using fun e => h e.symm)]
  | _ => simp [removeUser]

/-- Everything but the users. -/
structure Same (f g : Fn) : Prop where
  insn : g.insn = f.insn
  next : g.next = f.next
  parent : g.parent = f.parent
  body : g.body = f.body
  preds : g.preds = f.preds
  succs : g.succs = f.succs
  allBbs : g.allBbs = f.allBbs
  entry : g.entry = f.entry
  sp : g.sp = f.sp
  args : g.args = f.args

theorem Same.rfl {f : Fn} : Same f f := ⟨by rfl, by rfl, by rfl, by rfl, by rfl, by rfl, by rfl, by rfl, by rfl, by rfl⟩
theorem Same.trans {f g h : Fn} (a : Same f g) (b : Same g h) : Same f h :=
  ⟨b.insn.trans a.insn, b.next.trans a.next, b.parent.trans a.parent, b.body.trans a.body, b.preds.trans a.preds, b.succs.trans a.succs,
   b.allBbs.trans a.allBbs, b.entry.trans a.entry, b.sp.trans a.sp, b.args.trans a.args⟩

theorem addUser_same (f : Fn) (v x) : Same f (addUser f v x) := by cases v <;> exact ⟨rfl, rfl, rfl, rfl, rfl, rfl, rfl, rfl, rfl, rfl⟩
theorem removeUser_same (f : Fn) (v x) : Same f (removeUser f v x) := by cases v <;> exact ⟨rfl, rfl, rfl, rfl, rfl, rfl, rfl, rfl, rfl, rfl⟩

theorem addUsers_same (x : Nat) : ∀ (vs : List Val) (f : Fn), Same f (vs.foldl (fun f v => addUser f v x) f) := by
  intro vs
  induction vs with
  | nil => intro f; exact .rfl
  | cons v vs ih => intro f; exact (addUser_same f v x).trans (ih _)

theorem addUsers_count (x y z : Nat) : ∀ (vs : List Val) (f : Fn),
    ((vs.foldl (fun f v => addUser f v x) f).users y).count z = (f.users y).count z + if z = x then vs.count (.insn y) else 0 := by
  intro vs
  induction vs with
  | nil => intro f; simp
  | cons v vs ih =>
    intro f
    rw [List.foldl_cons, ih, addUser_users, List.count_cons]
    by_cases h : v = .insn y <;> by_cases hz : z = x
    · subst hz; simp [h]; omega
    · have : (x == z) = false := by simpa using fun e => hz e.symm
      simp [h, hz, List.count_append, List.count_cons, this]
    · simp [h, hz]
    · simp [h, hz]

theorem addUsers_mem (x y z : Nat) (vs : List Val) (f : Fn) (h : z ∈ (vs.foldl (fun f v => addUser f v x) f).users y) : z ∈ f.users y ∨ z = x := by
  have h1 := List.count_pos_iff.2 h
  rw [addUsers_count] at h1
  by_cases hz : z = x
  · exact .inr hz
  · rw [if_neg hz] at h1; exact .inl (List.count_pos_iff.1 (by omega))

theorem removeUsers_same (x : Nat) : ∀ (vs : List Val) (f : Fn), Same f (vs.foldl (fun f v => removeUser f v x) f) := by
  intro vs
  induction vs with
  | nil => intro f; exact .rfl
  | cons v vs ih => intro f; exact (removeUser_same f v x).trans (ih _)

theorem removeUsers_count (x y z : Nat) : ∀ (vs : List Val) (f : Fn),
    ((vs.foldl (fun f v => removeUser f v x) f).users y).count z = (f.users y).count z - if z = x then vs.count (.insn y) else 0 := by
  intro vs
  induction vs with
  | nil => intro f; simp
  | cons v vs ih =>
    intro f
    rw [List.foldl_cons, ih, removeUser_users, List.count_cons]
    by_cases h : v = .insn y <;> by_cases hz : z = x
    · subst hz; simp [h, List.count_erase]; omega
    · have : (x == z) = false := by simpa using fun e => hz e.symm
      simp [h, hz, List.count_erase, this]
    · simp [h, hz]
    · simp [h, hz]

/-! ## Operands -/

theorem operands_mapOps (g : Val → Val) (i : Insn) : operands (mapOps g i) = (operands i).map g := by
  unfold operands mapOps
  simp only [List.map_append]
  congr 1
  · congr 1
    split <;> simp
  · split <;> simp

theorem mapOps_op (g : Val → Val) (i : Insn) : (mapOps g i).op = i.op := rfl

theorem mapOps_id {g : Val → Val} {i : Insn} (h : ∀ v ∈ operands i, g v = v) : mapOps g i = i := by
  unfold mapOps
  have h1 : i.vals.map g = i.vals := by
    have : i.vals.map g = i.vals.map id := List.map_congr_left (fun v hv => h v (by simp [operands, hv]))
    simpa using this
  have h2 : (if i.op = .phi then i.phi.map (fun o => (o.1, g o.2)) else i.phi) = i.phi := by
    split
    · rename_i hp
      have : i.phi.map (fun o => (o.1, g o.2)) = i.phi.map id := by
        refine List.map_congr_left (fun o ho => ?_)
        have := h o.2 (by simp only [operands, hp, if_true, List.mem_append, List.mem_map]; exact .inl (.inr ⟨o, ho, rfl⟩))
        simp [this]
      simpa using this
    · rfl
  have h3 : (if raw i.op = true then g i.addr else i.addr) = i.addr := by
    split
    · rename_i hp
      exact h i.addr (by simp [operands, hp])
    · rfl
  rw [h1, h2, h3]

theorem count_set {l : List Val} {w v a : Val} : ∀ {j : Nat}, l[j]? = some a →
    (l.set j v).count w + (if a = w then 1 else 0) = l.count w + (if v = w then 1 else 0) := by
  induction l with
  | nil => intro j h; simp at h
  | cons b l ih =>
    intro j h
    cases j with
    | zero =>
      simp at h; subst h
      simp only [List.set_cons_zero, List.count_cons, beq_iff_eq]
      omega
    | succ j =>
      simp at h
      simp only [List.set_cons_succ, List.count_cons]
      have := ih h
      omega

theorem map_modify {l : List (Nat × Val)} {v : Val} : ∀ {j : Nat}, (l.modify j (fun o => (o.1, v))).map (·.2) = (l.map (·.2)).set j v := by
  induction l with
  | nil => intro j; cases j <;> simp
  | cons b l ih => intro j; cases j <;> simp [ih]

theorem setPtr_op (i : Insn) (v : Val) (p : Ptr) : (setPtr i v p).op = i.op := by cases p <;> rfl

theorem setPtr_count {i : Insn} {p : Ptr} {a v w : Val} (h : getPtr i p = some a) :
    (operands (setPtr i v p)).count w + (if a = w then 1 else 0) = (operands i).count w + (if v = w then 1 else 0) := by
  cases p with
  | val j =>
    simp only [getPtr] at h
    simp only [operands, setPtr, List.count_append]
    have := count_set (w := w) (v := v) h
    change List.count w (i.vals.set j v) + List.count w (if i.op = .phi then i.phi.map (·.2) else []) +
      List.count w (if raw i.op then [i.addr] else []) + _ = _
    omega
  | phi j =>
    simp only [getPtr] at h
    split at h
    · rename_i hp
      simp only [operands, setPtr, List.count_append, hp, if_true, map_modify]
      have h2 : (i.phi.map (·.2))[j]? = some a := by simpa using h
      have := count_set (w := w) (v := v) h2
      omega
    · cases h
  | addr =>
    simp only [getPtr] at h
    split at h
    · rename_i hp
      cases h
      simp only [operands, setPtr, List.count_append, hp, if_true, List.count_cons, List.count_nil, beq_iff_eq]
      change List.count w i.vals + List.count w (if i.op = .phi then i.phi.map (·.2) else []) + _ + _ = _
      omega
    · cases h

theorem mem_setPtr {i : Insn} {p : Ptr} {a v w : Val} (h : getPtr i p = some a) (hm : w ∈ operands (setPtr i v p)) : w ∈ operands i ∨ w = v := by
  have h1 := setPtr_count (v := v) (w := w) h
  have h2 := List.count_pos_iff.2 hm
  by_cases e : v = w
  · exact .inr e.symm
  · rw [if_neg e] at h1
    exact .inl (List.count_pos_iff.1 (by omega))

/-! ## Lists -/

theorem take_drop (l : List Nat) (a : Nat) (h : a ∈ l) : ∃ A B, l = A ++ a :: B ∧ a ∉ A ∧ l.takeWhile (· != a) = A ∧ l.dropWhile (· != a) = a :: B := by
  induction l with
  | nil => cases h
  | cons b l ih =>
    by_cases e : b = a
    · subst e
      exact ⟨[], l, rfl, by simp, by simp, by simp⟩
    · have h' : a ∈ l := by
        rcases List.mem_cons.1 h with h | h
        · exact absurd h.symm e
        · exact h
      obtain ⟨A, B, h1, h2, h3, h4⟩ := ih h'
      refine ⟨b :: A, B, by rw [h1]; rfl, by
        intro hm
        rcases List.mem_cons.1 hm with hm | hm
        · exact e hm.symm
        · exact h2 hm, ?_, ?_⟩
      · rw [List.takeWhile_cons]; simp [e, h3]
      · rw [List.dropWhile_cons]; simp [e, h4]

theorem mem_insBefore {l : List Nat} {a x y : Nat} : y ∈ insBefore l a x ↔ y = x ∨ y ∈ l := by
  have : l.takeWhile (· != a) ++ l.dropWhile (· != a) = l := List.takeWhile_append_dropWhile ..
  unfold insBefore
  constructor
  · intro h
    rcases List.mem_append.1 h with h | h
    · exact .inr (by rw [← this]; exact List.mem_append_left _ h)
    · rcases List.mem_cons.1 h with h | h
      · exact .inl h
      · exact .inr (by rw [← this]; exact List.mem_append_right _ h)
  · rintro (h | h)
    · subst h; simp
    · rw [← this] at h
      rcases List.mem_append.1 h with h | h
      · exact List.mem_append_left _ h
      · exact List.mem_append_right _ (List.mem_cons_of_mem _ h)

theorem mem_insAfter {l : List Nat} {a x y : Nat} (ha : a ∈ l) : y ∈ insAfter l a x ↔ y = x ∨ y ∈ l := by
  obtain ⟨A, B, h1, h2, h3, h4⟩ := take_drop l a ha
  unfold insAfter
  rw [h3, h4, h1]
  simp only [List.tail_cons, List.mem_append, List.mem_cons]
  constructor <;> intro h <;> rcases h with h | h | h | h <;> simp_all

theorem mem_placeBb {f : Fn} {l : List Nat} {x y : Nat} {pos : Pos} : y ∈ placeBb f l x pos ↔ y = x ∨ y ∈ l := by
  cases pos with
  | back => simp [placeBb, or_comm]
  | front => simp [placeBb]
  | backBeforeJmp =>
    simp only [placeBb]
    repeat' split
    · exact mem_insBefore
    · simp [or_comm]
    · simp [or_comm]
  | frontAfterPhi =>
    simp only [placeBb]
    split
    · exact mem_insBefore
    · simp [or_comm]

theorem nodup_insBefore {l : List Nat} {a x : Nat} (h : l.Nodup) (hx : x ∉ l) : (insBefore l a x).Nodup := by
  have e : l.takeWhile (· != a) ++ l.dropWhile (· != a) = l := List.takeWhile_append_dropWhile ..
  unfold insBefore
  rw [← e] at h hx
  rw [List.nodup_append] at h ⊢
  obtain ⟨h1, h2, h3⟩ := h
  simp only [List.mem_append, not_or] at hx
  refine ⟨h1, List.nodup_cons.2 ⟨hx.2, h2⟩, ?_⟩
  intro p hp q hq
  rcases List.mem_cons.1 hq with rfl | hq
  · intro e; subst e; exact hx.1 hp
  · exact h3 p hp q hq

theorem nodup_insAfter {l : List Nat} {a x : Nat} (ha : a ∈ l) (h : l.Nodup) (hx : x ∉ l) : (insAfter l a x).Nodup := by
  obtain ⟨A, B, h1, h2, h3, h4⟩ := take_drop l a ha
  unfold insAfter
  rw [h3, h4]
  subst h1
  simp only [List.tail_cons]
  simp only [List.nodup_append, List.nodup_cons, List.mem_cons, List.mem_append, not_or] at h hx ⊢
  obtain ⟨g1, ⟨g2, g3⟩, g4⟩ := h
  refine ⟨g1, ⟨⟨fun e => hx.2.1 e.symm, g2⟩, hx.2.2, g3⟩, ?_⟩
  rintro p hp q (rfl | rfl | hq)
  · exact g4 p hp q (.inl rfl)
  · intro e; subst e; exact hx.1 hp
  · exact g4 p hp q (.inr hq)

theorem nodup_snoc {l : List Nat} {x : Nat} (h : l.Nodup) (hx : x ∉ l) : (l ++ [x]).Nodup := by
  rw [List.nodup_append]
  refine ⟨h, by simp, ?_⟩
  intro p hp q hq
  simp at hq; subst hq
  intro e; subst e; exact hx hp

theorem nodup_placeBb {f : Fn} {l : List Nat} {x : Nat} {pos : Pos} (h : l.Nodup) (hx : x ∉ l) : (placeBb f l x pos).Nodup := by
  cases pos with
  | back => exact nodup_snoc h hx
  | front => exact List.nodup_cons.2 ⟨hx, h⟩
  | backBeforeJmp =>
    simp only [placeBb]
    repeat' split
    · exact nodup_insBefore h hx
    · exact nodup_snoc h hx
    · exact nodup_snoc h hx
  | frontAfterPhi =>
    simp only [placeBb]
    split
    · exact nodup_insBefore h hx
    · exact nodup_snoc h hx

theorem placeAt_ok {f : Fn} {l l' : List Nat} {a x : Nat} {pos : Pos} (h : placeAt f l a x pos = .ok l') (ha : a ∈ l) :
    (∀ y, y ∈ l' ↔ y = x ∨ y ∈ l) ∧ (l.Nodup → x ∉ l → l'.Nodup) := by
  unfold placeAt at h
  split at h
  · cases h
    exact ⟨fun y => mem_placeBb, fun h1 h2 => nodup_placeBb h1 h2⟩
  · cases pos with
    | back => cases h; exact ⟨fun y => mem_insAfter ha, fun h1 h2 => nodup_insAfter ha h1 h2⟩
    | front => cases h; exact ⟨fun y => mem_insBefore, fun h1 h2 => nodup_insBefore h1 h2⟩
    | backBeforeJmp => cases h
    | frontAfterPhi => cases h

/-! ## Fresh blocks -/

theorem le_foldr_max {l : List Nat} {b : Nat} (h : b ∈ l) : b ≤ l.foldr max 0 := by
  induction l with
  | nil => cases h
  | cons a l ih =>
    simp only [List.foldr_cons]
    rcases List.mem_cons.1 h with rfl | h
    · exact Nat.le_max_left ..
    · exact Nat.le_trans (ih h) (Nat.le_max_right ..)

theorem fresh_not_mem (f : Fn) : freshBb f ∉ f.allBbs := by
  intro h
  have := le_foldr_max h
  unfold freshBb at this
  omega

theorem mem_pushU {l : List Nat} {x y : Nat} : y ∈ pushU l x ↔ y ∈ l ∨ y = x := by
  unfold pushU
  split
  · constructor
    · exact .inl
    · rintro (h | rfl) <;> assumption
  · simp

theorem nodup_pushU {l : List Nat} {x : Nat} (h : l.Nodup) : (pushU l x).Nodup := by
  unfold pushU
  split
  · exact h
  · exact nodup_snoc h (by assumption)

end Verif.Edit
