import Verif.Cg.Cover
import Verif.Cg.Spill
/-!
# Adding instructions at the end of a block, changing operands
-/
namespace Verif.Cg
open Verif Verif.IR Verif.Edit Verif.Loc

/-- Next to a phi, another instruction goes behind the phis. -/
theorem createAt_phi {g : Fn} {i : Insn} {x : Nat} {pos : Pos} (hp : (g.insn x).op = .phi) (hx : x ≠ g.next) (hi : i.op ≠ .phi) :
    createAt g i x pos = .ok (createBb g i (g.parent x) .frontAfterPhi) := by
  have hal := alloc_same g i (g.parent x)
  unfold createAt
  dsimp only
  have : placeAt (alloc g i (g.parent x)) ((alloc g i (g.parent x)).body (g.parent x)) x g.next pos =
      .ok (placeBb (alloc g i (g.parent x)) ((alloc g i (g.parent x)).body (g.parent x)) g.next .frontAfterPhi) := by
    unfold placeAt
    rw [if_pos]
    rw [hal.insn]
    dsimp only
    rw [upd_ne _ _ hx, upd_same]
    exact ⟨hp, hi⟩
  rw [this, Out.ok_bind]
  rfl

variable {f g : Fn} {H N M T : Nat → List Nat}

/-- A new instruction in front of the jump at the end of a block. -/
theorem Grown.beforeJmp (h : Grown f g H N M T) (ht : Tidy f) {b z : Nat} (hb : b ∈ f.allBbs) {A : List Nat} (hz : codeOf f b = A ++ [z])
    (hop : isJmp (g.insn z).op = true) (hM : M z = []) (hT : T b = []) {i : Insn} (hi : ∀ y, .insn y ∈ operands i → Live g y) :
    Added g i b (createBb g i b .backBeforeJmp) ∧ Grown f (createBb g i b .backBeforeJmp) H (upd N z (N z ++ [g.next])) M T := by
  have hzc : z ∈ codeOf f b := by rw [hz]; simp
  have hb' : b ∈ g.allBbs := by rw [h.allBbs]; exact hb
  have hat := h.at hb hz
  rw [hM, hT] at hat
  simp only [ex, List.flatMap_nil, List.append_nil] at hat
  have hzg : z ∈ g.body b := by rw [hat]; simp
  have hlt : z ≠ g.next := fun e => by
    have := h.tidy.lt z (.inr (.inr ⟨b, hb', hzg⟩)); omega
  have hnp : (g.insn z).op ≠ .phi := by intro e; rw [e] at hop; cases hop
  obtain ⟨g', h1, h2, h3⟩ := h.front ht hb hzc hnp hi
  have hal := alloc_same g i b
  have hins : (alloc g i b).insn z = g.insn z := by rw [hal.insn]; exact upd_ne _ _ hlt
  have e : createAt g i z .front = .ok (createBb g i b .backBeforeJmp) := by
    have hp := h.tidy.parent b hb' z hzg
    have e1 : placeAt (alloc g i b) ((alloc g i b).body b) z g.next .front = .ok (insBefore (g.body b) z g.next) := by
      unfold placeAt
      rw [if_neg, hal.body]
      rintro ⟨h1, -⟩
      rw [hins] at h1
      exact hnp h1
    have e2 : placeBb (alloc g i b) ((alloc g i b).body b) g.next .backBeforeJmp = insBefore (g.body b) z g.next := by
      unfold placeBb
      dsimp only
      rw [hal.body]
      dsimp only
      have : (g.body b).getLast? = some z := by rw [hat]; simp
      rw [this]
      dsimp only
      rw [hins, if_pos hop]
    unfold createAt createBb
    rw [hp]
    dsimp only
    rw [e1, Out.ok_bind, e2]
  rw [e] at h1
  cases h1
  exact ⟨h2, h3⟩

/-- A new instruction at the end of a block that does not end with a jump. -/
theorem Grown.atBack (h : Grown f g H N M T) {b : Nat} (hb : b ∈ f.allBbs) (hl : ∀ z, (g.body b).getLast? = some z → isJmp (g.insn z).op = false)
    {i : Insn} (hi : ∀ y, .insn y ∈ operands i → Live g y) :
    Added g i b (createBb g i b .backBeforeJmp) ∧ Grown f (createBb g i b .backBeforeJmp) H N M (upd T b (T b ++ [g.next])) := by
  have hb' : b ∈ g.allBbs := by rw [h.allBbs]; exact hb
  have ha := added_createBb g i b .backBeforeJmp
  have hal := alloc_same g i b
  refine ⟨ha, ?_⟩
  have hbd : (createBb g i b .backBeforeJmp).body b = g.body b ++ [g.next] := by
    unfold createBb
    dsimp only
    rw [upd_same, hal.body]
    dsimp only
    unfold placeBb
    dsimp only
    cases e : (g.body b).getLast? with
    | none => rfl
    | some z =>
      dsimp only
      have hzg : z ∈ g.body b := List.mem_of_getLast? e
      have hlt : z ≠ g.next := fun e => by
        have := h.tidy.lt z (.inr (.inr ⟨b, hb', hzg⟩)); omega
      have hins : (alloc g i b).insn z = g.insn z := by rw [hal.insn]; exact upd_ne _ _ hlt
      rw [hins, if_neg (by rw [hl z e]; simp)]
  refine ⟨ha.entry.trans h.entry, ha.succs.trans h.succs, ha.preds.trans h.preds, ha.allBbs.trans h.allBbs, ha.sp.trans h.sp, ha.args.trans h.args,
    by rw [ha.next]; exact Nat.le_succ_of_le h.next, ?_, ?_, h.newI, ha.tidy h.tidy hb' hi⟩
  · intro c hc
    by_cases e : c = b
    · subst e
      rw [hbd, upd_same, h.body c hb]
      simp
    · rw [ha.body c e, upd_ne _ _ e, h.body c hc]
  · intro c n hn
    by_cases e : c = b
    · subst e
      rw [upd_same] at hn
      simp only [List.mem_append, List.mem_singleton] at hn
      rcases hn with hn | hn | rfl
      · exact h.newB c n (List.mem_append_left _ hn)
      · exact h.newB c n (List.mem_append_right _ hn)
      · exact h.next
    · rw [upd_ne _ _ e] at hn
      exact h.newB c n hn

/-! ## Changing operands -/

theorem chUsers_same (x : Nat) (rep : Val) (u : Nat) : ∀ (ls : List Unit) (f : Fn), Same f (ls.foldl (fun f _ => addUser (removeUser f (.insn x) u) rep u) f)
  | [], f => .rfl
  | _ :: ls, f => ((removeUser_same f _ u).trans (addUser_same _ rep u)).trans (chUsers_same x rep u ls _)

theorem chUsers_count (x : Nat) (rep : Val) (u : Nat) (hr : rep ≠ .insn x) (y z : Nat) : ∀ (ls : List Unit) (f : Fn),
    ((ls.foldl (fun f _ => addUser (removeUser f (.insn x) u) rep u) f).users y).count z =
      (f.users y).count z - (if y = x ∧ z = u then ls.length else 0) + (if rep = .insn y ∧ z = u then ls.length else 0)
  | [], f => by simp
  | _ :: ls, f => by
    rw [List.foldl_cons, chUsers_count x rep u hr y z ls, addUser_count, removeUser_count, List.length_cons]
    have e : (Val.insn x = .insn y) ↔ y = x := ⟨fun h => (Val.insn.inj h).symm, fun h => by rw [h]⟩
    simp only [e]
    by_cases h1 : y = x
    · subst h1
      have hr' : (rep = .insn y) = False := eq_false hr
      simp only [hr', false_and, if_false, true_and]
      split <;> omega
    · simp only [h1, false_and, if_false]
      split <;> omega

/-- What a change of operands leaves alone. -/
structure Changed (f : Fn) (u : Nat) (g : Fn) : Prop where
  patched : Patched f u g
  entry : g.entry = f.entry
  succs : g.succs = f.succs
  preds : g.preds = f.preds
  users : ∀ y z, z ≠ u → (g.users y).count z = (f.users y).count z

theorem changeAll_changed {x : Nat} {rep : Val} (hr : rep ≠ .insn x) (f : Fn) (u : Nat) :
    Changed f u (changeAll x rep f u) ∧ (changeAll x rep f u).insn u = mapOps (sub x rep) (f.insn u) := by
  have h := chUsers_same x rep u (List.replicate ((operands (f.insn u)).count (.insn x)) ())
    { f with insn := upd f.insn u (mapOps (fun v => if v = .insn x then rep else v) (f.insn u)) }
  have hc := fun y z => chUsers_count x rep u hr y z (List.replicate ((operands (f.insn u)).count (.insn x)) ())
    { f with insn := upd f.insn u (mapOps (fun v => if v = .insn x then rep else v) (f.insn u)) }
  refine ⟨⟨⟨fun z hz => ?_, h.next, h.parent, h.body, h.allBbs, h.sp, h.args⟩, h.entry, h.succs, h.preds, fun y z hz => ?_⟩, ?_⟩
  · unfold changeAll
    rw [h.insn]
    exact upd_ne _ _ hz
  · unfold changeAll
    rw [hc, if_neg (fun h => hz h.2), if_neg (fun h => hz h.2)]
    rfl
  · unfold changeAll
    rw [h.insn]
    exact upd_same _ _ _

theorem changeAll_count {x : Nat} {rep : Val} (hr : rep ≠ .insn x) (f : Fn) (u y : Nat) :
    ((changeAll x rep f u).users y).count u = (f.users y).count u - (if y = x then (operands (f.insn u)).count (.insn x) else 0) +
      (if rep = .insn y then (operands (f.insn u)).count (.insn x) else 0) := by
  have hc := chUsers_count x rep u hr y u (List.replicate ((operands (f.insn u)).count (.insn x)) ())
    { f with insn := upd f.insn u (mapOps (fun v => if v = .insn x then rep else v) (f.insn u)) }
  unfold changeAll
  rw [hc]
  simp

/-- `u` refers to `v` although it is not listed. -/
def CoverP (f : Fn) (X : Nat → Nat → Prop) : Prop := ∀ y w, Live f w → ¬ X w y → 0 < refs (f.insn w) y → w ∈ f.users y

theorem CoverP.mono {f : Fn} {X Y : Nat → Nat → Prop} (h : CoverP f X) (he : ∀ w y, X w y → Y w y) : CoverP f Y :=
  fun y w hw hn => h y w hw (fun e => hn (he w y e))

theorem CoverP.added {f g : Fn} {X : Nat → Nat → Prop} {i : Insn} {b : Nat} (ht : Tidy f) (h : CoverP f X) (ha : Added f i b g) (hb : b ∈ f.allBbs) : CoverP g X := by
  have hd := next_dead ht
  intro y u hu hn hr
  rw [ha.live hb] at hu
  rw [ha.insn] at hr
  rw [ha.users, ← List.count_pos_iff, alloc_count]
  rcases hu with rfl | hu
  · rw [upd_same, refs_eq] at hr
    rw [if_pos rfl]
    omega
  · have hne : u ≠ f.next := fun e => hd (e ▸ hu)
    rw [upd_ne _ _ hne] at hr
    rw [if_neg (fun e => hd (by rw [← e]; exact ht.closed u y hu hr))]
    have := List.count_pos_iff.2 (h y u hu hn hr)
    omega

/-- Users that exist. -/
def UsersIn (f : Fn) : Prop := ∀ y, Live f y → ∀ u ∈ f.users y, InBody f u

theorem added_inBody {f g : Fn} {i : Insn} {b : Nat} (ha : Added f i b g) (hb : b ∈ f.allBbs) {x : Nat} : InBody g x ↔ x = f.next ∨ InBody f x := by
  unfold InBody
  rw [ha.allBbs]
  constructor
  · rintro ⟨c, hc, hx⟩
    by_cases e : c = b
    · subst e
      rcases (ha.bodyB x).1 hx with h1 | h1
      · exact .inl h1
      · exact .inr ⟨c, hc, h1⟩
    · rw [ha.body c e] at hx; exact .inr ⟨c, hc, hx⟩
  · rintro (rfl | ⟨c, hc, hx⟩)
    · exact ⟨b, hb, (ha.bodyB _).2 (.inl rfl)⟩
    · by_cases e : c = b
      · subst e; exact ⟨c, hc, (ha.bodyB x).2 (.inr hx)⟩
      · exact ⟨c, hc, by rw [ha.body c e]; exact hx⟩

theorem UsersIn.added {f g : Fn} {i : Insn} {b : Nat} (h : UsersIn f) (ht : Tidy f) (ha : Added f i b g) (hb : b ∈ f.allBbs)
    (hi : ∀ y, .insn y ∈ operands i → Live f y) : UsersIn g := by
  intro y hy u hu
  rw [added_inBody ha hb]
  rw [ha.users, ← List.count_pos_iff, alloc_count] at hu
  by_cases e : u = f.next
  · exact .inl e
  · right
    rw [if_neg e] at hu
    rw [ha.live hb] at hy
    rcases hy with rfl | hy
    · rw [if_pos rfl] at hu; simp at hu
    · have hne : y ≠ f.next := fun e => next_dead ht (e ▸ hy)
      rw [if_neg hne] at hu
      exact h y hy u (List.count_pos_iff.1 (by omega))

theorem UsersIn.changed {f g : Fn} {u : Nat} (h : UsersIn f) (hc : Changed f u g) (hu : InBody f u) : UsersIn g := by
  have hin : ∀ x, InBody g x ↔ InBody f x := fun x => by unfold InBody; rw [hc.patched.allBbs, hc.patched.body]
  intro y hy z hz
  rw [hin]
  by_cases e : z = u
  · rw [e]; exact hu
  · refine h y (hc.patched.live.1 hy) z ?_
    rw [← List.count_pos_iff, ← hc.users y z e, List.count_pos_iff]
    exact hz

theorem CoverP.changed {f g : Fn} {X : Nat → Nat → Prop} {u : Nat} (h : CoverP f X) (hc : Changed f u g)
    (hu : ∀ y, ¬ X u y → 0 < refs (g.insn u) y → u ∈ g.users y) : CoverP g X := by
  intro y w hw hn hr
  by_cases e : w = u
  · subst e; exact hu y hn hr
  · rw [hc.patched.insn w e] at hr
    have := h y w (hc.patched.live.1 hw) hn hr
    rw [← List.count_pos_iff, hc.users y w e, List.count_pos_iff]
    exact this

theorem CoverP.changeAll {f : Fn} {v n u : Nat} (hn : n ≠ v) (hu : Live f u) (h : CoverP f (fun _ _ => False)) :
    CoverP (changeAll v (.insn n) f u) (fun _ _ => False) := by
  have hr : Val.insn n ≠ .insn v := fun e => hn (Val.insn.inj e)
  obtain ⟨h1, h2⟩ := changeAll_changed hr f u
  refine h.changed h1 (fun y _ hy => ?_)
  rw [h2, refs_eq, operands_mapOps, count_sub _ _ _ _ hr] at hy
  rw [← List.count_pos_iff, changeAll_count hr]
  by_cases e1 : y = v
  · subst e1
    rw [if_pos rfl, if_neg hr] at hy
    omega
  · rw [if_neg (fun e => e1 (Val.insn.inj e))] at hy
    rw [if_neg e1]
    by_cases e2 : Val.insn n = .insn y
    · rw [if_pos e2] at hy ⊢
      by_cases e3 : 0 < (operands (f.insn u)).count (.insn y)
      · have := List.count_pos_iff.2 (h y u hu (fun e => e) (by rw [refs_eq]; exact e3))
        omega
      · omega
    · rw [if_neg e2] at hy ⊢
      have := List.count_pos_iff.2 (h y u hu (fun e => e) (by rw [refs_eq]; omega))
      omega

/-- Changing one operand of a phi. -/
theorem changeValue_phi {f : Fn} {u : Nat} (hop : (f.insn u).op = .phi) {D r : List (Nat × Val)} {c : Nat} {old rep : Val}
    (hp : (f.insn u).phi = D ++ (c, old) :: r) : ∃ g, changeValue f u (.phi D.length) rep = .ok g ∧ Changed f u g ∧
      g.insn u = { f.insn u with phi := D ++ (c, rep) :: r } ∧
      ∀ y, (g.users y).count u = (f.users y).count u - (if old = .insn y then 1 else 0) + (if rep = .insn y then 1 else 0) := by
  have hg : getPtr (f.insn u) (.phi D.length) = some old := by
    unfold getPtr; dsimp only; rw [if_pos hop, hp]; simp
  have hst : setPtr (f.insn u) rep (.phi D.length) = { f.insn u with phi := D ++ (c, rep) :: r } := by
    unfold setPtr
    dsimp only
    congr 1
    rw [hp]
    clear hp hg
    induction D with
    | nil => rfl
    | cons d D ih => simp only [List.cons_append, List.length_cons, List.modify_succ_cons, ih]
  have h0 := removeUser_same f old u
  have h1 := addUser_same { removeUser f old u with insn := upd (removeUser f old u).insn u (setPtr ((removeUser f old u).insn u) rep (.phi D.length)) } rep u
  refine ⟨_, ?_, ⟨⟨fun z hz => ?_, h1.next.trans h0.next, h1.parent.trans h0.parent, h1.body.trans h0.body, h1.allBbs.trans h0.allBbs, h1.sp.trans h0.sp,
    h1.args.trans h0.args⟩, h1.entry.trans h0.entry, h1.succs.trans h0.succs, h1.preds.trans h0.preds, fun y z hz => ?_⟩, ?_, fun y => ?_⟩
  · unfold changeValue; rw [hg]
  · rw [h1.insn]; dsimp only; rw [upd_ne _ _ hz, h0.insn]
  · rw [addUser_count, if_neg (fun e => hz e.2)]
    dsimp only
    rw [removeUser_count, if_neg (fun e => hz e.2)]
    rfl
  · rw [h1.insn]; dsimp only; rw [upd_same, h0.insn, hst]
  · rw [addUser_count]
    dsimp only
    rw [removeUser_count]
    simp

end Verif.Cg
