import Verif.Cg.Model
import Verif.Loc.Run
import Verif.Edit.Props
/-!
# Functions to which instructions have been added

`g` is `f` with additional instructions: in a block they are behind the phis (`H b`), in front of and behind an
instruction `x` (`N x`, `M x`), and at the end (`T b`).
-/
namespace Verif.Cg
open Verif Verif.IR Verif.Edit Verif.Loc

/-- A list of instructions with the additional ones. -/
def ex (N M : Nat → List Nat) (l : List Nat) : List Nat := l.flatMap (fun x => N x ++ x :: M x)

theorem ex_append (N M : Nat → List Nat) (a b : List Nat) : ex N M (a ++ b) = ex N M a ++ ex N M b := by
  unfold ex; rw [List.flatMap_append]

theorem ex_cons (N M : Nat → List Nat) (x : Nat) (r : List Nat) : ex N M (x :: r) = N x ++ x :: (M x ++ ex N M r) := by
  unfold ex; rw [List.flatMap_cons]; simp

theorem ex_congr {N M N' M' : Nat → List Nat} {l : List Nat} (h : ∀ x ∈ l, N x = N' x ∧ M x = M' x) : ex N M l = ex N' M' l := by
  unfold ex
  rw [List.flatMap_def, List.flatMap_def]
  congr 1
  refine List.map_congr_left (fun x hx => ?_)
  rw [(h x hx).1, (h x hx).2]

theorem mem_ex {N M : Nat → List Nat} {l : List Nat} {x : Nat} (h : x ∈ l) : x ∈ ex N M l :=
  List.mem_flatMap.2 ⟨x, h, by simp⟩

structure Grown (f g : Fn) (H N M T : Nat → List Nat) : Prop where
  entry : g.entry = f.entry
  succs : g.succs = f.succs
  preds : g.preds = f.preds
  allBbs : g.allBbs = f.allBbs
  sp : g.sp = f.sp
  args : g.args = f.args
  next : f.next ≤ g.next
  body : ∀ b ∈ f.allBbs, g.body b = phisOf f b ++ (H b ++ (ex N M (codeOf f b) ++ T b))
  newB : ∀ b, ∀ n ∈ H b ++ T b, f.next ≤ n
  newI : ∀ x, ∀ n ∈ N x ++ M x, f.next ≤ n
  tidy : Tidy g

theorem Grown.start {f : Fn} (ht : Tidy f) : Grown f f (fun _ => []) (fun _ => []) (fun _ => []) (fun _ => []) := by
  refine ⟨rfl, rfl, rfl, rfl, rfl, rfl, Nat.le_refl _, fun b _ => ?_, by simp, by simp, ht⟩
  have : ex (fun _ => []) (fun _ => []) (codeOf f b) = codeOf f b := by
    unfold ex
    simp [List.flatMap_singleton']
  rw [this, List.append_nil, List.nil_append]
  exact (phisOf_append f b).symm

variable {f g : Fn} {H N M T : Nat → List Nat}

theorem Grown.stay (h : Grown f g H N M T) {b x : Nat} (hb : b ∈ f.allBbs) (hx : x ∈ f.body b) : x ∈ g.body b := by
  rw [h.body b hb]
  rw [← phisOf_append f b] at hx
  rcases List.mem_append.1 hx with hx | hx
  · exact List.mem_append_left _ hx
  · exact List.mem_append_right _ (List.mem_append_right _ (List.mem_append_left _ (mem_ex hx)))

theorem Grown.live (h : Grown f g H N M T) {x : Nat} (hx : Live f x) : Live g x := by
  rcases hx with hx | hx | ⟨b, hb, hx⟩
  · exact .inl (by rw [h.sp]; exact hx)
  · exact .inr (.inl (by rw [h.args]; exact hx))
  · exact .inr (.inr ⟨b, by rw [h.allBbs]; exact hb, h.stay hb hx⟩)

/-- Only instructions and users are changed. -/
theorem Grown.patch {g' : Fn} (h : Grown f g H N M T) (h1 : g'.entry = g.entry) (h2 : g'.succs = g.succs) (h3 : g'.preds = g.preds)
    (h4 : g'.allBbs = g.allBbs) (h5 : g'.sp = g.sp) (h6 : g'.args = g.args) (h7 : g'.next = g.next) (h8 : g'.body = g.body) (ht : Tidy g') :
    Grown f g' H N M T :=
  ⟨h1.trans h.entry, h2.trans h.succs, h3.trans h.preds, h4.trans h.allBbs, h5.trans h.sp, h6.trans h.args, by rw [h7]; exact h.next,
   fun b hb => by rw [h8]; exact h.body b hb, h.newB, h.newI, ht⟩

theorem tw_ne {A B : List Nat} {a : Nat} (h : a ∉ A) : (A ++ a :: B).takeWhile (· != a) = A ∧ (A ++ a :: B).dropWhile (· != a) = a :: B := by
  induction A with
  | nil => simp
  | cons c A ih =>
    have hc : c ≠ a := fun e => h (by simp [e])
    obtain ⟨i1, i2⟩ := ih (fun hm => h (List.mem_cons_of_mem _ hm))
    have : (c != a) = true := by simpa using hc
    rw [List.cons_append, List.takeWhile_cons, List.dropWhile_cons, if_pos this, if_pos this, i1, i2]
    exact ⟨rfl, rfl⟩

theorem insBefore_at {A B : List Nat} {a n : Nat} (h : a ∉ A) : insBefore (A ++ a :: B) a n = A ++ n :: a :: B := by
  unfold insBefore
  rw [(tw_ne h).1, (tw_ne h).2]

theorem insAfter_at {A B : List Nat} {a n : Nat} (h : a ∉ A) : insAfter (A ++ a :: B) a n = A ++ a :: n :: B := by
  unfold insAfter
  rw [(tw_ne h).1, (tw_ne h).2]
  rfl

/-- An instruction of `f` in its place in `g`. -/
theorem Grown.at (h : Grown f g H N M T) {b x : Nat} (hb : b ∈ f.allBbs) {A B : List Nat} (hx : codeOf f b = A ++ x :: B) :
    g.body b = (phisOf f b ++ (H b ++ (ex N M A ++ N x))) ++ x :: (M x ++ (ex N M B ++ T b)) := by
  rw [h.body b hb, hx, ex_append, ex_cons]
  simp

theorem nodup_mid {A B : List Nat} {x : Nat} (h : (A ++ x :: B).Nodup) : x ∉ A ∧ x ∉ B := by
  rw [List.nodup_append] at h
  exact ⟨fun hm => h.2.2 x hm x List.mem_cons_self rfl, (List.nodup_cons.1 h.2.1).1⟩

/-- The instruction `x` is in one block only, and once. -/
theorem code_once (ht : Tidy f) {b x : Nat} (hb : b ∈ f.allBbs) {A B : List Nat} (hx : codeOf f b = A ++ x :: B) :
    x ∉ A ∧ x ∉ B ∧ ∀ c ∈ f.allBbs, c ≠ b → x ∉ codeOf f c := by
  have hn := ht.nodup b hb
  rw [← phisOf_append f b, List.nodup_append, hx] at hn
  refine ⟨(nodup_mid hn.2.1).1, (nodup_mid hn.2.1).2, fun c hc hcb hm => hcb ?_⟩
  have hxb : x ∈ f.body b := by rw [← phisOf_append f b, hx]; simp
  have hxc : x ∈ f.body c := by rw [← phisOf_append f c]; exact List.mem_append_right _ hm
  rw [← ht.parent b hb x hxb, ← ht.parent c hc x hxc]

/-- A new instruction in front of `x`. -/
theorem Grown.front (h : Grown f g H N M T) (ht : Tidy f) {b x : Nat} (hb : b ∈ f.allBbs) (hx : x ∈ codeOf f b) (hop : (g.insn x).op ≠ .phi)
    {i : Insn} (hi : ∀ y, .insn y ∈ operands i → Live g y) :
    ∃ g', createAt g i x .front = .ok g' ∧ Added g i b g' ∧ Grown f g' H (upd N x (N x ++ [g.next])) M T := by
  obtain ⟨A, B, e⟩ := List.append_of_mem hx
  have hat := h.at hb e
  have hb' : b ∈ g.allBbs := by rw [h.allBbs]; exact hb
  have hxg : x ∈ g.body b := by rw [hat]; simp
  have hp := h.tidy.parent b hb' x hxg
  have hlt : x ≠ g.next := fun e => by
    have := h.tidy.lt x (.inr (.inr ⟨b, hb', hxg⟩)); omega
  have hal := alloc_same g i b
  have hpl : placeAt (alloc g i b) ((alloc g i b).body b) x g.next .front = .ok (insBefore (g.body b) x g.next) := by
    unfold placeAt
    rw [if_neg, hal.body]
    rintro ⟨h1, -⟩
    rw [hal.insn] at h1
    dsimp only at h1
    rw [upd_ne _ _ hlt] at h1
    exact hop h1
  have hc : createAt g i x .front = .ok { alloc g i b with next := g.next + 1, body := upd (alloc g i b).body b (insBefore (g.body b) x g.next) } := by
    unfold createAt
    rw [hp]
    dsimp only
    rw [hpl, Out.ok_bind]
  have ha := added_createAt hc (by rw [hp]; exact hxg)
  rw [hp] at ha
  refine ⟨_, hc, ha, ?_⟩
  have hnd := h.tidy.nodup b hb'
  rw [hat] at hnd
  obtain ⟨h1, h2, h3⟩ := code_once ht hb e
  refine ⟨ha.entry.trans h.entry, ha.succs.trans h.succs, ha.preds.trans h.preds, ha.allBbs.trans h.allBbs, ha.sp.trans h.sp, ha.args.trans h.args,
    Nat.le_succ_of_le h.next, ?_, h.newB, ?_, ha.tidy h.tidy hb' hi⟩
  · intro c hc0
    by_cases ec : c = b
    · subst ec
      dsimp only
      rw [upd_same, hat, insBefore_at (nodup_mid hnd).1, e, ex_append, ex_cons, upd_same]
      have e1 : ex (upd N x (N x ++ [g.next])) M A = ex N M A := ex_congr (fun y hy => ⟨upd_ne _ _ (fun e => h1 (e ▸ hy)), rfl⟩)
      have e2 : ex (upd N x (N x ++ [g.next])) M B = ex N M B := ex_congr (fun y hy => ⟨upd_ne _ _ (fun e => h2 (e ▸ hy)), rfl⟩)
      rw [e1, e2]
      simp
    · rw [ha.body c ec, h.body c hc0]
      congr 3
      exact ex_congr (fun y hy => ⟨(upd_ne _ _ (fun (e : y = x) => h3 c hc0 ec (e ▸ hy))).symm, rfl⟩)
  · intro y n hn
    by_cases ey : y = x
    · subst ey
      rw [upd_same] at hn
      simp only [List.mem_append, List.mem_singleton] at hn
      rcases hn with (hn | hn) | hn
      · exact h.newI y n (List.mem_append_left _ hn)
      · rw [hn]; exact h.next
      · exact h.newI y n (List.mem_append_right _ hn)
    · rw [upd_ne _ _ ey] at hn
      exact h.newI y n hn

/-- A new instruction behind `x`. -/
theorem Grown.back (h : Grown f g H N M T) (ht : Tidy f) {b x : Nat} (hb : b ∈ f.allBbs) (hx : x ∈ codeOf f b) (hop : (g.insn x).op ≠ .phi)
    {i : Insn} (hi : ∀ y, .insn y ∈ operands i → Live g y) :
    ∃ g', createAt g i x .back = .ok g' ∧ Added g i b g' ∧ Grown f g' H N (upd M x (g.next :: M x)) T := by
  obtain ⟨A, B, e⟩ := List.append_of_mem hx
  have hat := h.at hb e
  have hb' : b ∈ g.allBbs := by rw [h.allBbs]; exact hb
  have hxg : x ∈ g.body b := by rw [hat]; simp
  have hp := h.tidy.parent b hb' x hxg
  have hlt : x ≠ g.next := fun e => by
    have := h.tidy.lt x (.inr (.inr ⟨b, hb', hxg⟩)); omega
  have hal := alloc_same g i b
  have hpl : placeAt (alloc g i b) ((alloc g i b).body b) x g.next .back = .ok (insAfter (g.body b) x g.next) := by
    unfold placeAt
    rw [if_neg, hal.body]
    rintro ⟨h1, -⟩
    rw [hal.insn] at h1
    dsimp only at h1
    rw [upd_ne _ _ hlt] at h1
    exact hop h1
  have hc : createAt g i x .back = .ok { alloc g i b with next := g.next + 1, body := upd (alloc g i b).body b (insAfter (g.body b) x g.next) } := by
    unfold createAt
    rw [hp]
    dsimp only
    rw [hpl, Out.ok_bind]
  have ha := added_createAt hc (by rw [hp]; exact hxg)
  rw [hp] at ha
  refine ⟨_, hc, ha, ?_⟩
  have hnd := h.tidy.nodup b hb'
  rw [hat] at hnd
  obtain ⟨h1, h2, h3⟩ := code_once ht hb e
  refine ⟨ha.entry.trans h.entry, ha.succs.trans h.succs, ha.preds.trans h.preds, ha.allBbs.trans h.allBbs, ha.sp.trans h.sp, ha.args.trans h.args,
    Nat.le_succ_of_le h.next, ?_, h.newB, ?_, ha.tidy h.tidy hb' hi⟩
  · intro c hc0
    by_cases ec : c = b
    · subst ec
      dsimp only
      rw [upd_same, hat, insAfter_at (nodup_mid hnd).1, e, ex_append, ex_cons, upd_same]
      have e1 : ex N (upd M x (g.next :: M x)) A = ex N M A := ex_congr (fun y hy => ⟨rfl, upd_ne _ _ (fun e => h1 (e ▸ hy))⟩)
      have e2 : ex N (upd M x (g.next :: M x)) B = ex N M B := ex_congr (fun y hy => ⟨rfl, upd_ne _ _ (fun e => h2 (e ▸ hy))⟩)
      rw [e1, e2]
      simp
    · rw [ha.body c ec, h.body c hc0]
      congr 3
      exact ex_congr (fun y hy => ⟨rfl, (upd_ne _ _ (fun (e : y = x) => h3 c hc0 ec (e ▸ hy))).symm⟩)
  · intro y n hn
    by_cases ey : y = x
    · subst ey
      rw [upd_same] at hn
      simp only [List.mem_append, List.mem_cons] at hn
      rcases hn with hn | hn | hn
      · exact h.newI y n (List.mem_append_left _ hn)
      · rw [hn]; exact h.next
      · exact h.newI y n (List.mem_append_right _ hn)
    · rw [upd_ne _ _ ey] at hn
      exact h.newI y n hn

/-- What is behind the phis does not start with a phi. -/
theorem behind {b : Nat} (hop : ∀ x ∈ codeOf f b, (f.insn x).op ≠ .phi → (g.insn x).op ≠ .phi)
    (hH : ∀ n ∈ H b, (g.insn n).op ≠ .phi) (hN : ∀ x ∈ codeOf f b, ∀ n ∈ N x, (g.insn n).op ≠ .phi) (hT : ∀ n ∈ T b, (g.insn n).op ≠ .phi)
    {a : Nat} {r : List Nat} (e : H b ++ (ex N M (codeOf f b) ++ T b) = a :: r) : (g.insn a).op ≠ .phi := by
  rcases eH : H b with _ | ⟨a', r'⟩
  · rw [eH, List.nil_append] at e
    rcases ec : codeOf f b with _ | ⟨x, c⟩
    · rw [ec] at e
      refine hT a ?_
      have : T b = a :: r := e
      rw [this]; simp
    · have hx0 : (f.insn x).op ≠ .phi := by
        have := List.head?_dropWhile_not (p := fun x => (f.insn x).op == .phi) (l := f.body b)
        unfold codeOf at ec
        rw [ec] at this
        simpa using this
      rw [ec, ex_cons] at e
      rcases eN : N x with _ | ⟨n, ns⟩
      · rw [eN] at e
        simp only [List.nil_append, List.cons_append] at e
        injection e with e1 _
        subst e1
        exact hop x (by rw [ec]; simp) hx0
      · rw [eN] at e
        simp only [List.cons_append] at e
        injection e with e1 _
        subst e1
        exact hN x (by rw [ec]; simp) n (by rw [eN]; simp)
  · rw [eH, List.cons_append] at e
    injection e with e1 _
    subst e1
    exact hH a' (by rw [eH]; simp)

theorem dw_pos {p : Nat → Bool} : ∀ {l r : List Nat}, (∀ x ∈ l, p x = true) → (∀ a s, r = a :: s → p a = false) →
    (l ++ r).takeWhile p = l ∧ (l ++ r).dropWhile p = r
  | [], [], _, _ => ⟨rfl, rfl⟩
  | [], a :: r, _, h => by
    have := h a r rfl
    simp [this]
  | a :: l, r, h1, h2 => by
    have := h1 a List.mem_cons_self
    obtain ⟨i1, i2⟩ := dw_pos (l := l) (r := r) (fun x hx => h1 x (List.mem_cons_of_mem _ hx)) h2
    rw [List.cons_append, List.takeWhile_cons_of_pos this, List.dropWhile_cons_of_pos this, i1, i2]
    exact ⟨rfl, rfl⟩

/-- The phis and the code of a block of `g`. -/
theorem Grown.code (h : Grown f g H N M T) {b : Nat} (hb : b ∈ f.allBbs) (hop : ∀ x ∈ f.body b, (g.insn x).op = (f.insn x).op)
    (hH : ∀ n ∈ H b, (g.insn n).op ≠ .phi) (hN : ∀ x ∈ codeOf f b, ∀ n ∈ N x, (g.insn n).op ≠ .phi) (hT : ∀ n ∈ T b, (g.insn n).op ≠ .phi) :
    phisOf g b = phisOf f b ∧ codeOf g b = H b ++ (ex N M (codeOf f b) ++ T b) := by
  have := dw_pos (p := fun x => (g.insn x).op == .phi) (l := phisOf f b) (r := H b ++ (ex N M (codeOf f b) ++ T b)) (fun x hx => by
      rw [hop x (by rw [← phisOf_append f b]; exact List.mem_append_left _ hx), phisOf_phi hx]; rfl) (fun a s e => by
      have := behind (fun x hx h1 => by rw [hop x (by rw [← phisOf_append f b]; exact List.mem_append_right _ hx)]; exact h1) hH hN hT e
      simpa using this)
  unfold phisOf at this ⊢
  unfold codeOf at this ⊢
  rw [h.body b hb]
  exact this

/-- A new instruction behind the phis. -/
theorem Grown.afterPhi (h : Grown f g H N M T) {b : Nat} (hb : b ∈ f.allBbs) (hop : ∀ x ∈ f.body b, (g.insn x).op = (f.insn x).op)
    (hH : ∀ n ∈ H b, (g.insn n).op ≠ .phi) (hN : ∀ x ∈ codeOf f b, ∀ n ∈ N x, (g.insn n).op ≠ .phi) (hT : ∀ n ∈ T b, (g.insn n).op ≠ .phi)
    {i : Insn} (hi : ∀ y, .insn y ∈ operands i → Live g y) :
    Grown f (createBb g i b .frontAfterPhi) (upd H b (g.next :: H b)) N M T := by
  have hb' : b ∈ g.allBbs := by rw [h.allBbs]; exact hb
  have ha := added_createBb g i b .frontAfterPhi
  have hal := alloc_same g i b
  have hold : ∀ y, y ∈ g.body b → y ≠ g.next := fun y hy e => by
    have := h.tidy.lt y (.inr (.inr ⟨b, hb', hy⟩)); omega
  have hbd : (createBb g i b .frontAfterPhi).body b = phisOf f b ++ (g.next :: (H b ++ (ex N M (codeOf f b) ++ T b))) := by
    unfold createBb
    dsimp only
    rw [upd_same, hal.body]
    have hpl : ∀ r, g.body b = phisOf f b ++ r → (∀ a s, r = a :: s → (g.insn a).op ≠ .phi) →
        placeBb (alloc g i b) (g.body b) g.next .frontAfterPhi = phisOf f b ++ g.next :: r := by
      intro r e hr
      have hins : ∀ y ∈ g.body b, ((alloc g i b).insn y) = g.insn y := by
        intro y hy
        rw [hal.insn]
        exact upd_ne _ _ (hold y hy)
      have hfind : (g.body b).find? (fun a => ((alloc g i b).insn a).op != .phi) = r.head? := by
        rw [e, List.find?_append]
        have h1 : (phisOf f b).find? (fun a => ((alloc g i b).insn a).op != .phi) = none := by
          rw [List.find?_eq_none]
          intro y hy
          rw [hins y (by rw [e]; exact List.mem_append_left _ hy), hop y (by rw [← phisOf_append f b]; exact List.mem_append_left _ hy), phisOf_phi hy]
          simp
        rw [h1, Option.none_or]
        cases r with
        | nil => rfl
        | cons a s =>
          have h2 := hr a s rfl
          rw [List.find?_cons_of_pos]
          · rfl
          · rw [hins a (by rw [e]; simp)]
            simpa using h2
      unfold placeBb
      dsimp only
      rw [hfind]
      cases r with
      | nil => simp [e]
      | cons a s =>
        dsimp only [List.head?_cons]
        have hnd := h.tidy.nodup b hb'
        rw [e] at hnd ⊢
        exact insBefore_at (nodup_mid hnd).1
    exact hpl _ (h.body b hb) (fun a s e => behind (fun x hx h1 => by
      rw [hop x (by rw [← phisOf_append f b]; exact List.mem_append_right _ hx)]; exact h1) hH hN hT e)
  refine ⟨ha.entry.trans h.entry, ha.succs.trans h.succs, ha.preds.trans h.preds, ha.allBbs.trans h.allBbs, ha.sp.trans h.sp, ha.args.trans h.args,
    by rw [ha.next]; exact Nat.le_succ_of_le h.next, ?_, ?_, h.newI, ha.tidy h.tidy hb' hi⟩
  · intro c hc
    by_cases e : c = b
    · subst e
      rw [hbd, upd_same]
      rfl
    · rw [ha.body c e, upd_ne _ _ e, h.body c hc]
  · intro c n hn
    by_cases e : c = b
    · subst e
      rw [upd_same, List.cons_append] at hn
      rcases List.mem_cons.1 hn with rfl | hn
      · exact h.next
      · exact h.newB c n hn
    · rw [upd_ne _ _ e] at hn
      exact h.newB c n hn

end Verif.Cg
