import Verif.Edit.Lemmas
import Verif.Spec.Uses
/-!
# User lists under edits
-/
namespace Verif.Edit
open Verif Verif.IR
set_option linter.unusedSimpArgs false
set_option linter.unusedVariables false

theorem count_map_snd (l : List (Nat × Val)) (v : Val) : (l.map (·.2)).count v = l.countP (fun o => o.2 == v) := by
  induction l with
  | nil => rfl
  | cons a l ih => simp [List.countP_cons, List.count_cons, ih]

theorem refs_eq (i : Insn) (y : Nat) : refs i y = (operands i).count (.insn y) := by
  unfold refs operands
  simp only [List.count_append]
  congr 1
  · congr 1
    split
    · rw [count_map_snd]
    · rfl
  · by_cases h : raw i.op = true
    · rw [if_pos h]
      have : i.op = .loadraw ∨ i.op = .storeraw := by simpa [raw] using h
      by_cases e : i.addr = .insn y <;> simp [this, e, List.count_cons]
    · rw [if_neg h]
      have : ¬ (i.op = .loadraw ∨ i.op = .storeraw) := by simpa [raw] using h
      simp [this]

theorem refs_pos {i : Insn} {y : Nat} : 0 < refs i y ↔ .insn y ∈ operands i := by rw [refs_eq, List.count_pos_iff]

/-- Only the users differ. -/
theorem Same.inBody {f g : Fn} (h : Same f g) {x : Nat} : InBody g x ↔ InBody f x := by unfold InBody; rw [h.allBbs, h.body]
theorem Same.live {f g : Fn} (h : Same f g) {x : Nat} : Live g x ↔ Live f x := by unfold Live; rw [h.sp, h.args, h.inBody]
theorem Same.tidy {f g : Fn} (h : Same f g) (ht : Tidy f) : Tidy g := by
  refine ⟨?_, ?_, ?_, ?_, ?_⟩
  · intro x hx; rw [h.next]; exact ht.lt x (h.live.1 hx)
  · intro x y hx; rw [h.insn]; intro hy; exact h.live.2 (ht.closed x y (h.live.1 hx) hy)
  · rw [h.allBbs, h.body, h.parent]; exact ht.parent
  · rw [h.allBbs, h.body]; exact ht.nodup
  · rw [h.allBbs, h.body, h.sp, h.args]; exact ht.fixed

/-! ## Creation -/

theorem alloc_same (f : Fn) (i : Insn) (b : Nat) :
    Same { f with insn := upd f.insn f.next i, users := upd f.users f.next [], parent := upd f.parent f.next b } (alloc f i b) := by
  unfold alloc
  exact addUsers_same f.next _ _

theorem alloc_eq (f : Fn) (i : Insn) (b : Nat) : alloc f i b = (operands i).foldl (fun g v => addUser g v f.next)
    { f with insn := upd f.insn f.next i, users := upd f.users f.next [], parent := upd f.parent f.next b } := by
  rfl

theorem alloc_count (f : Fn) (i : Insn) (b y z : Nat) : ((alloc f i b).users y).count z =
    (if y = f.next then 0 else (f.users y).count z) + if z = f.next then (operands i).count (.insn y) else 0 := by
  rw [alloc_eq, addUsers_count]
  congr 1
  simp only [upd]
  split <;> simp

/-- A function with one instruction more. -/
structure Added (f : Fn) (i : Insn) (b : Nat) (g : Fn) : Prop where
  insn : g.insn = upd f.insn f.next i
  users : g.users = (alloc f i b).users
  next : g.next = f.next + 1
  parent : g.parent = upd f.parent f.next b
  bodyB : ∀ y, y ∈ g.body b ↔ y = f.next ∨ y ∈ f.body b
  bodyNodup : (f.body b).Nodup → f.next ∉ f.body b → (g.body b).Nodup
  body : ∀ c, c ≠ b → g.body c = f.body c
  preds : g.preds = f.preds
  succs : g.succs = f.succs
  allBbs : g.allBbs = f.allBbs
  entry : g.entry = f.entry
  sp : g.sp = f.sp
  args : g.args = f.args

theorem added_createBb (f : Fn) (i : Insn) (b : Nat) (pos : Pos) : Added f i b (createBb f i b pos) := by
  have h := alloc_same f i b
  unfold createBb
  refine ⟨h.insn, rfl, rfl, h.parent, ?_, ?_, ?_, h.preds, h.succs, h.allBbs, h.entry, h.sp, h.args⟩
  · intro y; dsimp only; rw [upd_same, mem_placeBb, h.body]
  · intro h1 h2; dsimp only; rw [upd_same, h.body]; exact nodup_placeBb h1 h2
  · intro c hc; dsimp only; rw [upd_ne _ _ hc, h.body]

theorem added_createAt {f g : Fn} {i : Insn} {a : Nat} {pos : Pos} (hc : createAt f i a pos = .ok g) (ha : a ∈ f.body (f.parent a)) :
    Added f i (f.parent a) g := by
  have h := alloc_same f i (f.parent a)
  unfold createAt at hc
  obtain ⟨l, h1, h2⟩ := Out.bind_eq_ok.1 hc
  cases h2
  have h3 := placeAt_ok h1 (by rw [h.body]; exact ha)
  rw [h.body] at h3
  refine ⟨h.insn, rfl, rfl, h.parent, ?_, ?_, ?_, h.preds, h.succs, h.allBbs, h.entry, h.sp, h.args⟩
  · intro y; dsimp only; rw [upd_same]; exact h3.1 y
  · intro h1 h2; dsimp only; rw [upd_same]; exact h3.2 h1 h2
  · intro c hc; dsimp only; rw [upd_ne _ _ hc, h.body]

theorem Added.live {f : Fn} {i : Insn} {b : Nat} {g : Fn} (h : Added f i b g) (hb : b ∈ f.allBbs) {x : Nat} :
    Live g x ↔ x = f.next ∨ Live f x := by
  unfold Live InBody
  rw [h.sp, h.args, h.allBbs]
  constructor
  · rintro (h1 | h1 | ⟨c, hc, hx⟩)
    · exact .inr (.inl h1)
    · exact .inr (.inr (.inl h1))
    · by_cases e : c = b
      · subst e
        rcases (h.bodyB x).1 hx with h1 | h1
        · exact .inl h1
        · exact .inr (.inr (.inr ⟨c, hc, h1⟩))
      · rw [h.body c e] at hx; exact .inr (.inr (.inr ⟨c, hc, hx⟩))
  · rintro (h1 | h1 | h1 | ⟨c, hc, hx⟩)
    · exact .inr (.inr ⟨b, hb, (h.bodyB x).2 (.inl h1)⟩)
    · exact .inl h1
    · exact .inr (.inl h1)
    · by_cases e : c = b
      · subst e; exact .inr (.inr ⟨c, hc, (h.bodyB x).2 (.inr hx)⟩)
      · exact .inr (.inr ⟨c, hc, by rw [h.body c e]; exact hx⟩)

theorem next_dead {f : Fn} (ht : Tidy f) : ¬ Live f f.next := fun h => Nat.lt_irrefl _ (ht.lt _ h)

theorem Added.tidy {f : Fn} {i : Insn} {b : Nat} {g : Fn} (h : Added f i b g) (ht : Tidy f) (hb : b ∈ f.allBbs)
    (hi : ∀ y, .insn y ∈ operands i → Live f y) : Tidy g := by
  have hd := next_dead ht
  have hnb : ∀ c ∈ f.allBbs, f.next ∉ f.body c := fun c hc hm => hd (.inr (.inr ⟨c, hc, hm⟩))
  refine ⟨?_, ?_, ?_, ?_, ?_⟩
  · intro x hx
    rw [h.next]
    rcases (h.live hb).1 hx with rfl | hx
    · omega
    · have := ht.lt x hx; omega
  · intro x y hx hy
    rw [h.live hb]
    rw [h.insn] at hy
    rcases (h.live hb).1 hx with rfl | hx
    · rw [upd_same, refs_pos] at hy; exact .inr (hi y hy)
    · have hne : x ≠ f.next := fun e => hd (e ▸ hx)
      rw [upd_ne _ _ hne] at hy
      exact .inr (ht.closed x y hx hy)
  · intro c hc x hx
    rw [h.allBbs] at hc
    rw [h.parent]
    by_cases e : c = b
    · subst e
      rcases (h.bodyB x).1 hx with rfl | hx
      · rw [upd_same]
      · rw [upd_ne _ _ (fun e => hnb c hc (by rw [← e]; exact hx))]; exact ht.parent c hc x hx
    · rw [h.body c e] at hx
      rw [upd_ne _ _ (fun e => hnb c hc (by rw [← e]; exact hx))]; exact ht.parent c hc x hx
  · intro c hc
    rw [h.allBbs] at hc
    by_cases e : c = b
    · subst e; exact h.bodyNodup (ht.nodup c hc) (hnb c hc)
    · rw [h.body c e]; exact ht.nodup c hc
  · intro c hc x hx
    rw [h.allBbs] at hc
    rw [h.sp, h.args]
    by_cases e : c = b
    · subst e
      rcases (h.bodyB x).1 hx with rfl | hx
      · exact ⟨fun e => hd (.inl e), fun e => hd (.inr (.inl e))⟩
      · exact ht.fixed c hc x hx
    · rw [h.body c e] at hx; exact ht.fixed c hc x hx

theorem Added.exact {f : Fn} {i : Insn} {b : Nat} {g : Fn} (h : Added f i b g) (ht : Tidy f) (hu : UsersExact f) (hb : b ∈ f.allBbs)
    (hi : ∀ y, .insn y ∈ operands i → Live f y) : UsersExact g := by
  have hd := next_dead ht
  have h0 : (operands i).count (.insn f.next) = 0 := List.count_eq_zero.2 (fun hm => hd (hi _ hm))
  have hop : ∀ y x, Live f y → x = f.next ∨ Live f x → (g.users y).count x = refs (g.insn x) y := by
    intro y x hy hx
    rw [h.users, alloc_count, h.insn, if_neg (fun e => hd (by rw [← e]; exact hy))]
    rcases hx with rfl | hx
    · rw [upd_same, refs_eq, if_pos rfl]
      have : (f.users y).count f.next = 0 := List.count_eq_zero.2 (fun hm => hd ((hu y hy).2 _ hm))
      omega
    · have hne : x ≠ f.next := fun e => hd (e ▸ hx)
      rw [upd_ne _ _ hne, if_neg hne, (hu y hy).1 x hx]; omega
  intro y hy
  rcases (h.live hb).1 hy with rfl | hy
  · have hz : ∀ z, (g.users f.next).count z = 0 := by
      intro z; rw [h.users, alloc_count, if_pos rfl, h0]; split <;> rfl
    refine ⟨?_, ?_⟩
    · intro x hx
      rw [hz, h.insn]
      rcases (h.live hb).1 hx with rfl | hx
      · rw [upd_same, refs_eq, h0]
      · have hne : x ≠ f.next := fun e => hd (e ▸ hx)
        rw [upd_ne _ _ hne]
        rcases Nat.eq_zero_or_pos (refs (f.insn x) f.next) with e | e
        · exact e.symm
        · exact absurd (ht.closed x _ hx e) hd
    · intro x hx
      have := List.count_pos_iff.2 hx
      rw [hz] at this
      omega
  · refine ⟨fun x hx => hop y x hy ((h.live hb).1 hx), ?_⟩
    intro x hx
    rw [h.live hb]
    have := List.count_pos_iff.2 hx
    rw [h.users, alloc_count, if_neg (fun e => hd (by rw [← e]; exact hy))] at this
    by_cases e : x = f.next
    · exact .inl e
    · rw [if_neg e] at this
      exact .inr ((hu y hy).2 x (List.count_pos_iff.1 (by omega)))

/-! ## Changing one instruction -/

/-- Same lists and blocks, same instructions except `x`. -/
structure Patched (f : Fn) (x : Nat) (g : Fn) : Prop where
  insn : ∀ z, z ≠ x → g.insn z = f.insn z
  next : g.next = f.next
  parent : g.parent = f.parent
  body : g.body = f.body
  allBbs : g.allBbs = f.allBbs
  sp : g.sp = f.sp
  args : g.args = f.args

theorem Patched.live {f g : Fn} {x : Nat} (h : Patched f x g) {z : Nat} : Live g z ↔ Live f z := by
  unfold Live InBody; rw [h.sp, h.args, h.allBbs, h.body]

theorem Patched.tidy {f g : Fn} {x : Nat} (h : Patched f x g) (ht : Tidy f) (hc : Live f x → ∀ y, 0 < refs (g.insn x) y → Live f y) : Tidy g := by
  refine ⟨?_, ?_, ?_, ?_, ?_⟩
  · intro z hz; rw [h.next]; exact ht.lt z (h.live.1 hz)
  · intro z y hz hy
    rw [h.live] at hz ⊢
    by_cases e : z = x
    · subst e; exact hc hz y hy
    · rw [h.insn z e] at hy; exact ht.closed z y hz hy
  · rw [h.allBbs, h.body, h.parent]; exact ht.parent
  · rw [h.allBbs, h.body]; exact ht.nodup
  · rw [h.allBbs, h.body, h.sp, h.args]; exact ht.fixed

theorem Patched.exact {f g : Fn} {x : Nat} (h : Patched f x g) (hu : UsersExact f) (hx : Live f x)
    (hc : ∀ y, Live f y → ∀ z, z ≠ x → (g.users y).count z = (f.users y).count z)
    (hcx : ∀ y, Live f y → (g.users y).count x = refs (g.insn x) y) : UsersExact g := by
  intro y hy
  rw [h.live] at hy
  refine ⟨?_, ?_⟩
  · intro z hz
    rw [h.live] at hz
    by_cases e : z = x
    · subst e; exact hcx y hy
    · rw [hc y hy z e, h.insn z e]; exact (hu y hy).1 z hz
  · intro z hz
    rw [h.live]
    by_cases e : z = x
    · subst e; exact hx
    · have := List.count_pos_iff.2 hz
      rw [hc y hy z e] at this
      exact (hu y hy).2 z (List.count_pos_iff.1 this)

theorem addUser_count (f : Fn) (v : Val) (x y z : Nat) :
    ((addUser f v x).users y).count z = (f.users y).count z + if v = .insn y ∧ z = x then 1 else 0 := by
  have := addUsers_count x y z [v] f
  simp only [List.foldl_cons, List.foldl_nil] at this
  rw [this]
  congr 1
  by_cases h1 : z = x <;> by_cases h2 : v = .insn y <;> simp [h1, h2, List.count_cons]

theorem removeUser_count (f : Fn) (v : Val) (x y z : Nat) :
    ((removeUser f v x).users y).count z = (f.users y).count z - if v = .insn y ∧ z = x then 1 else 0 := by
  have := removeUsers_count x y z [v] f
  simp only [List.foldl_cons, List.foldl_nil] at this
  rw [this]
  congr 1
  by_cases h1 : z = x <;> by_cases h2 : v = .insn y <;> simp [h1, h2, List.count_cons]

theorem liveVal_insn {f : Fn} {v : Val} (h : LiveVal f v) {y : Nat} (e : v = .insn y) : Live f y := by subst e; exact h

/-- An operand is added at the end. -/
theorem push_ok {f : Fn} {x : Nat} {i : Insn} {v : Val} (ht : Tidy f) (hx : Live f x) (hv : LiveVal f v)
    (hi : ∀ w, (operands i).count w = (operands (f.insn x)).count w + if v = w then 1 else 0) :
    Tidy (addUser { f with insn := upd f.insn x i } v x) ∧ (UsersExact f → UsersExact (addUser { f with insn := upd f.insn x i } v x)) := by
  have h0 := addUser_same { f with insn := upd f.insn x i } v x
  have hp : Patched f x (addUser { f with insn := upd f.insn x i } v x) :=
    ⟨fun z hz => by rw [h0.insn]; exact upd_ne _ _ hz, h0.next, h0.parent, h0.body, h0.allBbs, h0.sp, h0.args⟩
  have hin : (addUser { f with insn := upd f.insn x i } v x).insn x = i := by rw [h0.insn]; exact upd_same ..
  refine ⟨hp.tidy ht ?_, fun hu => hp.exact hu hx ?_ ?_⟩
  · intro _ y hy
    rw [hin, refs_eq, hi] at hy
    by_cases e : v = .insn y
    · exact liveVal_insn hv e
    · rw [if_neg e, ← refs_eq] at hy; exact ht.closed x y hx (by omega)
  · intro y hy z hz; rw [addUser_count]; simp [hz]
  · intro y hy
    rw [addUser_count, hin, refs_eq, hi, (hu y hy).1 x hx, refs_eq]
    simp

theorem phiAdd_ok {f : Fn} {x b : Nat} {v : Val} (ht : Tidy f) (hx : Live f x) (hv : LiveVal f v) (hop : (f.insn x).op = .phi) :
    Tidy (phiAddOperand f x b v) ∧ (UsersExact f → UsersExact (phiAddOperand f x b v)) := by
  refine push_ok ht hx hv ?_
  intro w
  simp only [operands, hop, if_true, List.map_append, List.map_cons, List.map_nil, List.count_append, List.count_cons, List.count_nil, beq_iff_eq]
  omega

theorem callArg_ok {f g : Fn} {x : Nat} {v : Val} (ht : Tidy f) (hx : Live f x) (hv : LiveVal f v) (h : addCallArg f x v = .ok g) :
    Tidy g ∧ (UsersExact f → UsersExact g) := by
  unfold addCallArg at h
  split at h
  · cases h
  · cases h
    refine push_ok ht hx hv ?_
    intro w
    simp only [operands, List.count_append, List.count_cons, List.count_nil, beq_iff_eq]
    change List.count w (f.insn x).vals + (0 + _) + List.count w (if (f.insn x).op = .phi then (f.insn x).phi.map (·.2) else []) +
      List.count w (if raw (f.insn x).op then [(f.insn x).addr] else []) = _
    omega

theorem change_ok {f g : Fn} {x : Nat} {p : Ptr} {v : Val} (ht : Tidy f) (hx : Live f x) (hv : LiveVal f v) (h : changeValue f x p v = .ok g) :
    Tidy g ∧ (UsersExact f → UsersExact g) := by
  unfold changeValue at h
  split at h
  · cases h
  · rename_i old ho
    cases h
    have h0 := removeUser_same f old x
    have h1 := addUser_same { removeUser f old x with insn := upd (removeUser f old x).insn x (setPtr ((removeUser f old x).insn x) v p) } v x
    have hin : (addUser { removeUser f old x with insn := upd (removeUser f old x).insn x (setPtr ((removeUser f old x).insn x) v p) } v x).insn x
        = setPtr (f.insn x) v p := by rw [h1.insn]; simp only [h0.insn, upd_same]
    have hp : Patched f x (addUser { removeUser f old x with insn := upd (removeUser f old x).insn x (setPtr ((removeUser f old x).insn x) v p) } v x) :=
      ⟨fun z hz => by rw [h1.insn]; simp only [h0.insn, upd_ne _ _ hz], h1.next.trans h0.next, h1.parent.trans h0.parent, h1.body.trans h0.body,
        h1.allBbs.trans h0.allBbs, h1.sp.trans h0.sp, h1.args.trans h0.args⟩
    refine ⟨hp.tidy ht ?_, fun hu => hp.exact hu hx ?_ ?_⟩
    · intro _ y hy
      rw [hin, refs_pos] at hy
      rcases mem_setPtr ho hy with h2 | h2
      · exact ht.closed x y hx (refs_pos.2 h2)
      · exact liveVal_insn hv h2.symm
    · intro y hy z hz
      rw [addUser_count]
      change ((removeUser f old x).users y).count z + _ = _
      rw [removeUser_count]; simp [hz]
    · intro y hy
      rw [addUser_count, hin, refs_eq]
      change ((removeUser f old x).users y).count x + _ = _
      rw [removeUser_count, (hu y hy).1 x hx, refs_eq]
      have h2 := setPtr_count (v := v) (w := .insn y) ho
      simp only [and_true]
      have h3 : old = .insn y → 0 < (operands (f.insn x)).count (.insn y) := by
        intro e
        rw [List.count_pos_iff, ← e]
        cases p with
        | val j => simp only [getPtr] at ho; simp [operands, List.mem_of_getElem? ho]
        | phi j =>
          simp only [getPtr] at ho
          split at ho
          · rename_i hp
            obtain ⟨o, h4, h5⟩ := Option.map_eq_some_iff.1 ho
            simp only [operands, hp, if_true, List.mem_append, List.mem_map]
            exact .inl (.inr ⟨o, List.mem_of_getElem? h4, h5⟩)
          · cases ho
        | addr =>
          simp only [getPtr] at ho
          split at ho
          · rename_i hraw; simp only [Option.some.injEq] at ho; simp [operands, hraw, ho]
          · cases ho
      by_cases e : old = .insn y
      · have := h3 e; rw [if_pos e] at h2 ⊢; omega
      · rw [if_neg e] at h2 ⊢; omega

/-! ## Replacing all uses -/

theorem addUserN_same (v : Val) (x : Nat) : ∀ (l : List Unit) (f : Fn), Same f (l.foldl (fun f _ => addUser f v x) f) := by
  intro l
  induction l with
  | nil => intro f; exact .rfl
  | cons a l ih => intro f; exact (addUser_same f v x).trans (ih _)

theorem addUserN_count (v : Val) (x y z : Nat) : ∀ (l : List Unit) (f : Fn),
    ((l.foldl (fun f _ => addUser f v x) f).users y).count z = (f.users y).count z + if v = .insn y ∧ z = x then l.length else 0 := by
  intro l
  induction l with
  | nil => intro f; simp
  | cons a l ih =>
    intro f
    rw [List.foldl_cons, ih, addUser_count]
    by_cases h : v = .insn y ∧ z = x <;> simp [h]; omega

theorem addUserN_users (v : Val) (x y : Nat) (h : v ≠ .insn y) : ∀ (l : List Unit) (f : Fn), (l.foldl (fun f _ => addUser f v x) f).users y = f.users y := by
  intro l
  induction l with
  | nil => intro f; rfl
  | cons a l ih => intro f; rw [List.foldl_cons, ih, addUser_users, if_neg h]

/-- The substitution. -/
def sub (x : Nat) (rep v : Val) : Val := if v = .insn x then rep else v

theorem count_sub (x : Nat) (rep : Val) (l : List Val) (w : Val) (hr : rep ≠ .insn x) :
    (l.map (sub x rep)).count w = (if w = .insn x then 0 else l.count w) + if rep = w then l.count (.insn x) else 0 := by
  induction l with
  | nil => simp
  | cons a l ih =>
    simp only [List.map_cons, List.count_cons, ih, sub, beq_iff_eq]
    have hr' : Val.insn x ≠ rep := fun e => hr e.symm
    by_cases h1 : a = .insn x
    · subst h1
      by_cases h2 : rep = w
      · subst h2; simp [hr, hr']; try omega
      · by_cases h3 : w = .insn x
        · subst h3; simp [hr, hr']
        · have h4 : ¬ Val.insn x = w := fun e => h3 e.symm
          simp [h2, h3, h4]
    · by_cases h2 : rep = w
      · subst h2; simp [h1, hr]; omega
      · by_cases h3 : w = .insn x
        · subst h3; simp [h1, h2]
        · simp [h1, h2, h3]

theorem replaceIn_same (x : Nat) (rep : Val) (f : Fn) (u : Nat) :
    Same { f with insn := upd f.insn u (mapOps (sub x rep) (f.insn u)) } (replaceIn x rep f u) := addUserN_same ..

theorem replaceIn_count (x : Nat) (rep : Val) (f : Fn) (u y z : Nat) : ((replaceIn x rep f u).users y).count z =
    (f.users y).count z + if rep = .insn y ∧ z = u then (operands (f.insn u)).count (.insn x) else 0 := by
  unfold replaceIn
  rw [addUserN_count]
  simp

/-- Effect of rewriting the instructions `S` (each once). -/
structure Replaced (f : Fn) (x : Nat) (rep : Val) (S : Nat → Prop) (g : Fn) : Prop where
  insnIn : ∀ z, S z → g.insn z = mapOps (sub x rep) (f.insn z)
  insnOut : ∀ z, ¬ S z → g.insn z = f.insn z
  usersIn : ∀ y z, rep = .insn y → S z → (g.users y).count z = (f.users y).count z + (operands (f.insn z)).count (.insn x)
  usersOut : ∀ y z, y ≠ x → rep ≠ .insn y ∨ ¬ S z → (g.users y).count z = (f.users y).count z
  next : g.next = f.next
  parent : g.parent = f.parent
  body : g.body = f.body
  preds : g.preds = f.preds
  succs : g.succs = f.succs
  allBbs : g.allBbs = f.allBbs
  entry : g.entry = f.entry
  sp : g.sp = f.sp
  args : g.args = f.args

theorem sub_idem {x : Nat} {rep : Val} (hr : rep ≠ .insn x) (v : Val) : sub x rep (sub x rep v) = sub x rep v := by
  unfold sub
  by_cases h : v = .insn x <;> simp [h, hr]

theorem mapOps_comp (g h : Val → Val) (i : Insn) : mapOps g (mapOps h i) = mapOps (fun v => g (h v)) i := by
  unfold mapOps
  dsimp only
  congr 1
  · rw [List.map_map]; rfl
  · split
    · rw [List.map_map]; rfl
    · rfl
  · split <;> rfl

theorem Replaced.refl {f : Fn} {x : Nat} {rep : Val} : Replaced f x rep (fun _ => False) f :=
  ⟨fun z h => h.elim, fun z _ => rfl, fun y z _ h => h.elim, fun y z _ _ => rfl, rfl, rfl, rfl, rfl, rfl, rfl, rfl, rfl, rfl⟩

theorem Replaced.step {f g : Fn} {x : Nat} {rep : Val} {S : Nat → Prop} (h : Replaced f x rep S g) (hr : rep ≠ .insn x) (u : Nat) :
    Replaced f x rep (fun z => S z ∨ z = u) (replaceIn x rep g u) := by
  have h0 := replaceIn_same x rep g u
  have hc := replaceIn_count x rep g u
  have hcount : ∀ z, S z → (operands (g.insn z)).count (.insn x) = 0 := by
    intro z hz
    rw [h.insnIn z hz, operands_mapOps, count_sub x rep _ _ hr]
    simp [hr]
  refine ⟨?_, ?_, ?_, ?_, h0.next.trans h.next, h0.parent.trans h.parent, h0.body.trans h.body, h0.preds.trans h.preds, h0.succs.trans h.succs,
    h0.allBbs.trans h.allBbs, h0.entry.trans h.entry, h0.sp.trans h.sp, h0.args.trans h.args⟩
  · intro z hz
    rw [h0.insn]
    by_cases e : z = u
    · subst e
      simp only [upd_same]
      rcases Classical.em (S z) with hs | hs
      · rw [h.insnIn z hs, mapOps_comp]
        congr 1
        funext v; exact sub_idem hr v
      · rw [h.insnOut z hs]
    · simp only [upd_ne _ _ e]
      exact h.insnIn z (hz.resolve_right e)
  · intro z hz
    rw [h0.insn]
    simp only [upd_ne _ _ (fun e => hz (.inr e))]
    exact h.insnOut z (fun e => hz (.inl e))
  · intro y z hy hz
    rw [hc]
    by_cases e : z = u
    · subst e
      rcases Classical.em (S z) with hs | hs
      · rw [hcount z hs, h.usersIn y z hy hs]; simp
      · rw [if_pos ⟨hy, rfl⟩, h.insnOut z hs]
        have := h.usersOut y z (fun e => hr (by rw [hy, e])) (.inr hs)
        omega
    · rw [if_neg (fun e' => e e'.2), h.usersIn y z hy (hz.resolve_right e)]; rfl
  · intro y z hy hz
    rw [hc, if_neg, Nat.add_zero]
    · refine h.usersOut y z hy ?_
      rcases hz with hz | hz
      · exact .inl hz
      · exact .inr (fun e => hz (.inl e))
    · rintro ⟨e1, e2⟩
      rcases hz with hz | hz
      · exact hz e1
      · exact hz (.inr e2)

theorem Replaced.congr {f g : Fn} {x : Nat} {rep : Val} {S T : Nat → Prop} (h : Replaced f x rep S g) (e : ∀ z, S z ↔ T z) : Replaced f x rep T g := by
  have : S = T := funext (fun z => propext (e z))
  rw [← this]; exact h

theorem replaced_fold {x : Nat} {rep : Val} (hr : rep ≠ .insn x) : ∀ (us : List Nat) (f g : Fn) (S : Nat → Prop), Replaced f x rep S g →
    Replaced f x rep (fun z => S z ∨ z ∈ us) (us.foldl (replaceIn x rep) g) := by
  intro us
  induction us with
  | nil => intro f g S h; exact h.congr (fun z => by simp)
  | cons u us ih =>
    intro f g S h
    exact (ih f _ _ (h.step hr u)).congr (fun z => by simp [or_assoc])

theorem replaceIn_usersX {x : Nat} {rep : Val} (hr : rep ≠ .insn x) (f : Fn) (u : Nat) : (replaceIn x rep f u).users x = f.users x := by
  unfold replaceIn
  rw [addUserN_users rep u x hr]

theorem replaceAll_usersX {f : Fn} {x : Nat} {rep : Val} (hr : rep ≠ .insn x) : (replaceAll f x rep).users x = [] := by
  unfold replaceAll
  have : ∀ (us : List Nat) (g : Fn), (us.foldl (replaceIn x rep) g).users x = g.users x := by
    intro us
    induction us with
    | nil => intro g; rfl
    | cons u us ih => intro g; rw [List.foldl_cons, ih, replaceIn_usersX hr]
  rw [this]
  exact upd_same ..

theorem replaceAll_spec {f : Fn} {x : Nat} {rep : Val} (hr : rep ≠ .insn x) : Replaced f x rep (· ∈ f.users x) (replaceAll f x rep) := by
  have h0 : Replaced f x rep (fun _ => False) { f with users := upd f.users x [] } :=
    ⟨fun z h => h.elim, fun z _ => rfl, fun y z _ h => h.elim, fun y z hy _ => by dsimp only; rw [upd_ne _ _ hy], rfl, rfl, rfl, rfl, rfl, rfl, rfl, rfl, rfl⟩
  exact (replaced_fold hr (f.users x) f _ _ h0).congr (fun z => by simp)

theorem replaceExcept_spec {f : Fn} {x : Nat} {rep : Val} {e : Nat} (hr : rep ≠ .insn x) :
    Replaced f x rep (fun z => z ∈ f.users x ∧ z ≠ e) (replaceExcept f x rep e) ∧
    (replaceExcept f x rep e).users x = List.replicate ((f.users x).count e) e := by
  have h0 : Replaced f x rep (fun _ => False) { f with users := upd f.users x [] } :=
    ⟨fun z h => h.elim, fun z _ => rfl, fun y z _ h => h.elim, fun y z hy _ => by dsimp only; rw [upd_ne _ _ hy], rfl, rfl, rfl, rfl, rfl, rfl, rfl, rfl, rfl⟩
  have : ∀ (us : List Nat) (g : Fn) (S : Nat → Prop) (k : Nat), Replaced f x rep S g → g.users x = List.replicate k e →
      let g' := us.foldl (fun f u => if u = e then { f with users := upd f.users x (f.users x ++ [u]) } else replaceIn x rep f u) g
      Replaced f x rep (fun z => S z ∨ (z ∈ us ∧ z ≠ e)) g' ∧ g'.users x = List.replicate (k + us.count e) e := by
    intro us
    induction us with
    | nil => intro g S k h hk; exact ⟨h.congr (fun z => by simp), by simpa using hk⟩
    | cons u us ih =>
      intro g S k h hk
      simp only [List.foldl_cons]
      by_cases he : u = e
      · rw [if_pos he]
        have hg : Replaced f x rep S { g with users := upd g.users x (g.users x ++ [u]) } :=
          ⟨h.insnIn, h.insnOut, fun y z hy hz => by dsimp only; rw [upd_ne _ _ (fun e' => hr (by rw [hy, e']))]; exact h.usersIn y z hy hz,
            fun y z hy hz => by dsimp only; rw [upd_ne _ _ hy]; exact h.usersOut y z hy hz,
            h.next, h.parent, h.body, h.preds, h.succs, h.allBbs, h.entry, h.sp, h.args⟩
        obtain ⟨i1, i2⟩ := ih _ S (k + 1) hg (by dsimp only; rw [upd_same, hk, he, List.replicate_succ'])
        refine ⟨i1.congr (fun z => ?_), ?_⟩
        · simp only [List.mem_cons]
          constructor
          · rintro (h1 | ⟨h1, h2⟩)
            · exact .inl h1
            · exact .inr ⟨.inr h1, h2⟩
          · rintro (h1 | ⟨h1 | h1, h2⟩)
            · exact .inl h1
            · exact absurd (h1.trans he) h2
            · exact .inr ⟨h1, h2⟩
        · rw [i2, List.count_cons]; simp only [he, beq_self_eq_true, if_true]; congr 1; omega
      · rw [if_neg he]
        obtain ⟨i1, i2⟩ := ih _ _ k (h.step hr u) (by rw [replaceIn_usersX hr]; exact hk)
        refine ⟨i1.congr (fun z => ?_), ?_⟩
        · simp only [List.mem_cons]
          constructor
          · rintro ((h1 | h1) | ⟨h1, h2⟩)
            · exact .inl h1
            · exact .inr ⟨.inl h1, fun e' => he (by rw [← h1, e'])⟩
            · exact .inr ⟨.inr h1, h2⟩
          · rintro (h1 | ⟨h1 | h1, h2⟩)
            · exact .inl (.inl h1)
            · exact .inl (.inr h1)
            · exact .inr ⟨h1, h2⟩
        · rw [i2, List.count_cons]
          have : (u == e) = false := by simpa using he
          simp [this]
  obtain ⟨h1, h2⟩ := this (f.users x) _ _ 0 h0 (by simp)
  exact ⟨h1.congr (fun z => by simp), by unfold replaceExcept; simpa using h2⟩

theorem Replaced.live {f g : Fn} {x : Nat} {rep : Val} {S : Nat → Prop} (h : Replaced f x rep S g) {z : Nat} : Live g z ↔ Live f z := by
  unfold Live InBody; rw [h.sp, h.args, h.allBbs, h.body]

theorem Replaced.tidy {f g : Fn} {x : Nat} {rep : Val} {S : Nat → Prop} (h : Replaced f x rep S g) (ht : Tidy f) (hv : LiveVal f rep) : Tidy g := by
  refine ⟨?_, ?_, ?_, ?_, ?_⟩
  · intro z hz; rw [h.next]; exact ht.lt z (h.live.1 hz)
  · intro z y hz hy
    rw [h.live] at hz ⊢
    rcases Classical.em (S z) with hs | hs
    · rw [h.insnIn z hs, refs_pos, operands_mapOps, List.mem_map] at hy
      obtain ⟨w, h1, h2⟩ := hy
      unfold sub at h2
      split at h2
      · exact liveVal_insn hv h2
      · subst h2; exact ht.closed z y hz (refs_pos.2 h1)
    · rw [h.insnOut z hs] at hy; exact ht.closed z y hz hy
  · rw [h.allBbs, h.body, h.parent]; exact ht.parent
  · rw [h.allBbs, h.body]; exact ht.nodup
  · rw [h.allBbs, h.body, h.sp, h.args]; exact ht.fixed

/-- `S` contains all the users, possibly except `e`, whose listings stay. -/
theorem Replaced.exact {f g : Fn} {x : Nat} {rep : Val} {S : Nat → Prop} (h : Replaced f x rep S g) (ht : Tidy f) (hu : UsersExact f)
    (hx : Live f x) (hr : rep ≠ .insn x)
    (hS : ∀ z, Live f z → S z → (g.users x).count z = 0)
    (hN : ∀ z, Live f z → ¬ S z → (g.users x).count z = (f.users x).count z)
    (hm : ∀ z, z ∈ g.users x → Live f z) (hSl : ∀ z, S z → Live f z) : UsersExact g := by
  intro y hy
  rw [h.live] at hy
  by_cases hyx : y = x
  · subst hyx
    refine ⟨?_, fun z hz => h.live.2 (hm z hz)⟩
    intro z hz
    rw [h.live] at hz
    rcases Classical.em (S z) with hs | hs
    · rw [hS z hz hs, h.insnIn z hs, refs_eq, operands_mapOps, count_sub _ _ _ _ hr]
      simp [hr]
    · rw [hN z hz hs, h.insnOut z hs]; exact (hu y hy).1 z hz
  · have hcount : ∀ z, Live f z → (g.users y).count z = refs (g.insn z) y := by
      intro z hz
      rcases Classical.em (S z) with hs | hs
      · rw [h.insnIn z hs, refs_eq, operands_mapOps, count_sub _ _ _ _ hr]
        have hne : ¬ (Val.insn y = Val.insn x) := by simpa using hyx
        rw [if_neg hne]
        by_cases e : rep = .insn y
        · rw [h.usersIn y z e hs, if_pos e, (hu y hy).1 z hz, refs_eq]
        · rw [h.usersOut y z hyx (.inl e), if_neg e, (hu y hy).1 z hz, refs_eq]; rfl
      · rw [h.insnOut z hs, h.usersOut y z hyx (.inr hs)]; exact (hu y hy).1 z hz
    refine ⟨fun z hz => hcount z (h.live.1 hz), ?_⟩
    intro z hz
    rw [h.live]
    rcases Classical.em (S z) with hs | hs
    · exact hSl z hs
    · have := List.count_pos_iff.2 hz
      rw [h.usersOut y z hyx (.inr hs)] at this
      exact (hu y hy).2 z (List.count_pos_iff.1 this)

theorem replaceAll_ok {f : Fn} {x : Nat} {rep : Val} (ht : Tidy f) (hx : Live f x) (hv : LiveVal f rep) (hr : rep ≠ .insn x) :
    Tidy (replaceAll f x rep) ∧ (UsersExact f → UsersExact (replaceAll f x rep)) := by
  have h := replaceAll_spec (f := f) hr
  have hX := replaceAll_usersX (f := f) hr
  refine ⟨h.tidy ht hv, fun hu => h.exact ht hu hx hr ?_ ?_ ?_ ?_⟩
  · intro z _ _; rw [hX]; rfl
  · intro z _ hs; rw [hX]; exact (List.count_eq_zero.2 hs).symm
  · intro z hz; rw [hX] at hz; cases hz
  · intro z hz; exact (hu x hx).2 z hz

theorem replaceExcept_ok {f : Fn} {x e : Nat} {rep : Val} (ht : Tidy f) (hx : Live f x) (hv : LiveVal f rep) (hr : rep ≠ .insn x) :
    Tidy (replaceExcept f x rep e) ∧ (UsersExact f → UsersExact (replaceExcept f x rep e)) := by
  obtain ⟨h, hX⟩ := replaceExcept_spec (f := f) (e := e) hr
  refine ⟨h.tidy ht hv, fun hu => h.exact ht hu hx hr ?_ ?_ ?_ ?_⟩
  · intro z _ hs
    rw [hX]
    refine List.count_eq_zero.2 (fun hm => hs.2 (List.eq_of_mem_replicate hm))
  · intro z _ hs
    rw [hX]
    by_cases ez : z = e
    · subst ez; simp
    · have : z ∉ f.users x := fun hm => hs ⟨hm, ez⟩
      rw [List.count_eq_zero.2 this]
      exact List.count_eq_zero.2 (fun hm => ez (List.eq_of_mem_replicate hm))
  · intro z hz
    rw [hX] at hz
    have e1 := List.eq_of_mem_replicate hz
    subst e1
    have : 0 < (f.users x).count z := by
      rcases Nat.eq_zero_or_pos ((f.users x).count z) with h0 | h0
      · rw [h0] at hz; simp at hz
      · exact h0
    exact (hu x hx).2 z (List.count_pos_iff.1 this)
  · intro z hz; exact (hu x hx).2 z hz.1

/-! ## Erasing -/

theorem erase_spec {f g : Fn} {x : Nat} (h : erase f x = .ok g) :
    (∀ z ∈ f.users x, z = x) ∧ Same { f with body := upd f.body (f.parent x) ((f.body (f.parent x)).erase x) } g ∧
    ∀ y z, (g.users y).count z = (f.users y).count z - if z = x then (operands (f.insn x)).count (.insn y) else 0 := by
  unfold erase at h
  split at h
  · cases h
  · rename_i hu
    have hu : ∀ z ∈ f.users x, z = x := by simpa using hu
    have h0 := removeUsers_same x (operands (f.insn x)) f
    cases h
    refine ⟨hu, ⟨h0.insn, h0.next, h0.parent, ?_, h0.preds, h0.succs, h0.allBbs, h0.entry, h0.sp, h0.args⟩, fun y z => removeUsers_count x y z _ f⟩
    dsimp only
    rw [h0.parent, h0.body]

theorem erase_body {f g : Fn} {x : Nat} (ht : Tidy f) (hx : InBody f x) (h : erase f x = .ok g) :
    ∀ c ∈ f.allBbs, (g.body c).Nodup ∧ ∀ z, z ∈ g.body c ↔ z ∈ f.body c ∧ z ≠ x := by
  obtain ⟨_, hs, _⟩ := erase_spec h
  obtain ⟨b, hb, hxb⟩ := hx
  have hp := ht.parent b hb x hxb
  intro c hc
  rw [hs.body]
  dsimp only
  rw [hp]
  by_cases e : c = b
  · subst e
    rw [upd_same]
    exact ⟨(ht.nodup c hc).erase x, fun z => by rw [(ht.nodup c hc).mem_erase_iff]; exact and_comm⟩
  · rw [upd_ne _ _ e]
    refine ⟨ht.nodup c hc, fun z => ⟨fun hz => ⟨hz, fun e' => e ?_⟩, fun hz => hz.1⟩⟩
    subst e'
    rw [← ht.parent c hc z hz, hp]

theorem erase_live {f g : Fn} {x : Nat} (ht : Tidy f) (hx : InBody f x) (h : erase f x = .ok g) {z : Nat} : Live g z ↔ Live f z ∧ z ≠ x := by
  obtain ⟨_, hs, _⟩ := erase_spec h
  have hb := erase_body ht hx h
  obtain ⟨b, hbm, hxb⟩ := hx
  have hf := ht.fixed b hbm x hxb
  unfold Live InBody
  rw [hs.sp, hs.args, hs.allBbs]
  dsimp only
  constructor
  · rintro (h1 | h1 | ⟨c, hc, hz⟩)
    · exact ⟨.inl h1, fun e => hf.1 (by rw [← e, h1])⟩
    · exact ⟨.inr (.inl h1), fun e => hf.2 (by rw [← e]; exact h1)⟩
    · have := ((hb c hc).2 z).1 hz
      exact ⟨.inr (.inr ⟨c, hc, this.1⟩), this.2⟩
  · rintro ⟨h1 | h1 | ⟨c, hc, hz⟩, hne⟩
    · exact .inl h1
    · exact .inr (.inl h1)
    · exact .inr (.inr ⟨c, hc, ((hb c hc).2 z).2 ⟨hz, hne⟩⟩)

/-- Erasing keeps everything tidy if the users are at least listed. -/
theorem erase_tidy {f g : Fn} {x : Nat} (ht : Tidy f) (hu : UsersListed f) (hx : InBody f x) (h : erase f x = .ok g) : Tidy g := by
  obtain ⟨h1, hs, _⟩ := erase_spec h
  have hb := erase_body ht hx h
  have hl := @erase_live f g x ht hx h
  have hlx : Live f x := .inr (.inr hx)
  refine ⟨?_, ?_, ?_, ?_, ?_⟩
  · intro z hz; rw [hs.next]; exact ht.lt z (hl.1 hz).1
  · intro z y hz hy
    rw [hs.insn] at hy
    rw [hl] at hz ⊢
    refine ⟨ht.closed z y hz.1 hy, ?_⟩
    intro e
    subst e
    exact hz.2 (h1 z (((hu y hlx).1 z hz.1).2 hy))
  · intro c hc z hz
    rw [hs.allBbs] at hc
    rw [hs.parent]
    exact ht.parent c hc z (((hb c hc).2 z).1 hz).1
  · intro c hc; rw [hs.allBbs] at hc; exact (hb c hc).1
  · intro c hc z hz
    rw [hs.allBbs] at hc
    rw [hs.sp, hs.args]
    exact ht.fixed c hc z (((hb c hc).2 z).1 hz).1

theorem UsersExact.listed {f : Fn} (h : UsersExact f) : UsersListed f := by
  intro y hy
  refine ⟨fun x hx => ?_, (h y hy).2⟩
  rw [← (h y hy).1 x hx, List.count_pos_iff]

theorem erase_exact {f g : Fn} {x : Nat} (ht : Tidy f) (hu : UsersExact f) (hx : InBody f x) (h : erase f x = .ok g) : UsersExact g := by
  obtain ⟨h1, hs, hc⟩ := erase_spec h
  have hl := @erase_live f g x ht hx h
  intro y hy
  rw [hl] at hy
  refine ⟨?_, ?_⟩
  · intro z hz
    rw [hl] at hz
    rw [hc, if_neg hz.2, hs.insn]
    exact (hu y hy.1).1 z hz.1
  · intro z hz
    rw [hl]
    have hp := List.count_pos_iff.2 hz
    rw [hc] at hp
    by_cases e : z = x
    · subst e
      rw [if_pos rfl, (hu y hy.1).1 z (.inr (.inr hx)), refs_eq] at hp
      omega
    · rw [if_neg e] at hp
      exact ⟨(hu y hy.1).2 z (List.count_pos_iff.1 (by omega)), e⟩

end Verif.Edit
