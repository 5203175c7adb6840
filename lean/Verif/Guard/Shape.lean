import Verif.Edit.SplitSim
import Verif.Spec.Shape
/-!
# Inserting a check: what the function looks like afterwards

The block `b` is split into `hd` and `tl`; `tl` goes to the new block `n`.  A conditional jump `j` at the end of `hd` leads
to `n` or to the new block `e`, which only throws.
-/
namespace Verif.Guard
open Verif Verif.IR Verif.Edit
set_option linter.unusedSimpArgs false

structure Guard (f : Fn) (b n e : Nat) (hd tl : List Nat) (i : Insn) (g : Fn) : Prop where
  inF : b ∈ f.allBbs
  freshN : n ∉ f.allBbs
  freshE : e ∉ f.allBbs
  ne : n ≠ e
  list : f.body b = hd ++ tl
  nonempty : tl ≠ []
  insn : g.insn = upd (upd f.insn f.next mkThrow) (f.next + 1) i
  next : g.next = f.next + 2
  sp : g.sp = f.sp
  args : g.args = f.args
  entry : g.entry = f.entry
  allBbs : g.allBbs = f.allBbs ++ [n, e]
  body : ∀ c ∈ f.allBbs, g.body c = if c = b then hd ++ [f.next + 1] else f.body c
  bodyN : g.body n = tl
  bodyE : g.body e = [f.next]
  parent : ∀ y, g.parent y = if y = f.next + 1 then b else if y = f.next then e else if y ∈ tl then n else f.parent y
  succs : ∀ c, g.succs c = if c = b then [n, e] else if c = n then f.succs b else if c = e then [] else f.succs c
  preds : ∀ c, g.preds c = if c = n ∨ c = e then [b] else if c ∈ f.succs b then (f.preds c).erase b ++ [n] else f.preds c
  bb1 : i.bb1 = n
  bb2 : i.bb2 = e
  cond : i.op.condJmp = true

/-- The error block of a check. -/
def withErr (f1 : Fn) : Fn := createBb (newBb f1) mkThrow (freshBb f1) .back

theorem withErr_spec (f1 : Fn) : (withErr f1).insn = upd f1.insn f1.next mkThrow ∧ (withErr f1).next = f1.next + 1 ∧
    (withErr f1).sp = f1.sp ∧ (withErr f1).args = f1.args ∧ (withErr f1).entry = f1.entry ∧
    (withErr f1).allBbs = f1.allBbs ++ [freshBb f1] ∧ (withErr f1).body = upd f1.body (freshBb f1) [f1.next] ∧
    (withErr f1).parent = upd f1.parent f1.next (freshBb f1) ∧ (withErr f1).succs = upd f1.succs (freshBb f1) [] ∧
    (withErr f1).preds = upd f1.preds (freshBb f1) [] := by
  have h := added_createBb (newBb f1) mkThrow (freshBb f1) .back
  refine ⟨h.insn, h.next, h.sp, h.args, h.entry, h.allBbs, ?_, h.parent, h.succs, h.preds⟩
  funext c
  by_cases e : c = freshBb f1
  · subst e
    rw [upd_same]
    have hb := (alloc_same (newBb f1) mkThrow (freshBb f1)).body
    unfold withErr createBb
    dsimp only
    rw [upd_same, hb]
    simp [placeBb, newBb]
  · rw [upd_ne _ _ e]
    have : (withErr f1).body c = (newBb f1).body c := h.body c e
    rw [this]
    exact upd_ne _ _ e

/-- How a check is put together. -/
theorem guard_mk {f f1 g : Fn} {b n : Nat} {hd tl : List Nat} {i : Insn} (S : Split f b n hd tl f1) (hb : b ∈ f.allBbs)
    (hinsn : g.insn = upd (withErr f1).insn (withErr f1).next i) (hnext : g.next = (withErr f1).next + 1)
    (hsp : g.sp = f1.sp) (hargs : g.args = f1.args) (hentry : g.entry = f1.entry) (hall : g.allBbs = (withErr f1).allBbs)
    (hbody : ∀ c, c ≠ b → g.body c = (withErr f1).body c) (hbB : g.body b = hd ++ [(withErr f1).next])
    (hpar : g.parent = upd (withErr f1).parent (withErr f1).next b)
    (hsucc : g.succs = (connect (withErr f1) b (freshBb f1)).succs) (hpred : g.preds = (connect (withErr f1) b (freshBb f1)).preds)
    (h1 : i.bb1 = n) (h2 : i.bb2 = freshBb f1) (hc : i.op.condJmp = true) (hg : Graph f) : Guard f b n (freshBb f1) hd tl i g := by
  obtain ⟨w1, w2, w3, w4, w5, w6, w7, w8, w9, w10⟩ := withErr_spec f1
  have hef := fresh_not_mem f1
  have hen : n ≠ freshBb f1 := fun e => hef (by rw [← e, S.allBbs]; simp)
  have heb : b ≠ freshBb f1 := fun e => hef (by rw [← e, S.allBbs]; exact List.mem_append_left _ hb)
  have hbn : b ≠ n := fun e => S.fresh (by rw [← e]; exact hb)
  have hsb : ∀ c ∈ f.succs b, c ∈ f.allBbs := (hg.succs b hb).2
  refine ⟨hb, S.fresh, fun h => hef (by rw [S.allBbs]; exact List.mem_append_left _ h), hen, S.list, S.ne, ?_, ?_, by rw [hsp, S.sp],
    by rw [hargs, S.args], by rw [hentry, S.entry], ?_, ?_, ?_, ?_, ?_, ?_, ?_, h1, h2, hc⟩
  · rw [hinsn, w1, w2, S.insn, S.next]
  · rw [hnext, w2, S.next]
  · rw [hall, w6, S.allBbs]; simp
  · intro c hc
    by_cases e : c = b
    · rw [if_pos e, e, hbB, w2, S.next]
    · have hce : c ≠ freshBb f1 := fun e => hef (by rw [← e, S.allBbs]; exact List.mem_append_left _ hc)
      rw [if_neg e, hbody c e, w7, upd_ne _ _ hce, S.body c hc, if_neg e]
  · rw [hbody n (fun e => hbn e.symm), w7, upd_ne _ _ hen, S.bodyN]
  · rw [hbody _ (fun e => heb e.symm), w7, upd_same, S.next]
  · intro y
    rw [hpar, w8, w2, S.next]
    unfold upd
    split
    · rfl
    · split
      · rfl
      · exact S.parent y
  · intro c
    rw [hsucc]
    simp only [connect, w9, upd]
    by_cases e : c = b
    · subst e; rw [if_pos rfl, if_pos rfl, if_neg heb, S.succs, if_pos rfl]; simp [pushU, hen.symm]
    · rw [if_neg e, if_neg e, S.succs, if_neg e]
      by_cases e' : c = freshBb f1
      · rw [if_pos e', if_neg (fun h => hen (by rw [← h, e'])), if_pos e']
      · rw [if_neg e', if_neg e']
  · intro c
    rw [hpred]
    simp only [connect, w10, upd]
    by_cases e : c = freshBb f1
    · subst e; simp [pushU]
    · rw [if_neg e, if_neg e, S.preds]
      by_cases e' : c = n
      · simp [e']
      · simp [e, e']

/-! ## Inserting one instruction -/

theorem cut {A : List Nat} {a : Nat} (hA : a ∉ A) (B : List Nat) :
    (A ++ a :: B).takeWhile (· != a) = A ∧ (A ++ a :: B).dropWhile (· != a) = a :: B := by
  induction A with
  | nil => simp
  | cons x A ih =>
    have h1 : x ≠ a := fun e => hA (by rw [e]; exact List.mem_cons_self ..)
    have h2 := ih (fun h => hA (List.mem_cons_of_mem _ h))
    rw [List.cons_append, List.takeWhile_cons, List.dropWhile_cons, h2.1, h2.2]
    simp [h1]

theorem createAt_front {f g : Fn} {i : Insn} {a : Nat} {A B : List Nat} (h : createAt f i a .front = .ok g)
    (hl : f.body (f.parent a) = A ++ a :: B) (hA : a ∉ A) (hp : (f.insn a).op ≠ .phi) (hn : a ≠ f.next) :
    g.body (f.parent a) = A ++ f.next :: a :: B := by
  unfold createAt at h
  obtain ⟨l, h1, h2⟩ := Out.bind_eq_ok.1 h
  cases h2
  have hs := alloc_same f i (f.parent a)
  simp only [hs.body, hl] at h1
  unfold placeAt at h1
  rw [hs.insn] at h1
  simp only [upd, if_neg hn, hp, false_and, if_false] at h1
  cases h1
  dsimp only
  rw [upd_same]
  have ht := cut hA B
  unfold insBefore
  rw [ht.1, ht.2]

theorem createAt_back {f g : Fn} {i : Insn} {a : Nat} {A B : List Nat} (h : createAt f i a .back = .ok g)
    (hl : f.body (f.parent a) = A ++ a :: B) (hA : a ∉ A) (hp : (f.insn a).op ≠ .phi) (hn : a ≠ f.next) :
    g.body (f.parent a) = A ++ a :: f.next :: B := by
  unfold createAt at h
  obtain ⟨l, h1, h2⟩ := Out.bind_eq_ok.1 h
  cases h2
  have hs := alloc_same f i (f.parent a)
  simp only [hs.body, hl] at h1
  unfold placeAt at h1
  rw [hs.insn] at h1
  simp only [upd, if_neg hn, hp, false_and, if_false] at h1
  cases h1
  dsimp only
  rw [upd_same]
  have ht := cut hA B
  unfold insAfter
  rw [ht.1, ht.2]
  rfl

/-- Behind the last instruction of a block, also if that is a phi. -/
theorem createAt_last {f g : Fn} {i : Insn} {a : Nat} {A : List Nat} (h : createAt f i a .back = .ok g)
    (hl : f.body (f.parent a) = A ++ [a]) (hA : a ∉ A) (hp : (f.insn a).op = .phi → ∀ x ∈ A, (f.insn x).op = .phi)
    (hn : ∀ x ∈ A ++ [a], x ≠ f.next) : g.body (f.parent a) = A ++ [a, f.next] := by
  by_cases e : (f.insn a).op = .phi
  · by_cases e' : i.op = .phi
    · unfold createAt at h
      obtain ⟨l, h1, h2⟩ := Out.bind_eq_ok.1 h
      cases h2
      have hs := alloc_same f i (f.parent a)
      simp only [hs.body, hl] at h1
      unfold placeAt at h1
      rw [hs.insn] at h1
      simp only [upd, if_true, e', ne_eq, not_true_eq_false, and_false, if_false] at h1
      cases h1
      dsimp only
      rw [upd_same]
      have ht := cut hA []
      unfold insAfter
      rw [ht.1, ht.2]
      rfl
    · unfold createAt at h
      obtain ⟨l, h1, h2⟩ := Out.bind_eq_ok.1 h
      cases h2
      have hs := alloc_same f i (f.parent a)
      simp only [hs.body, hl] at h1
      unfold placeAt at h1
      rw [hs.insn] at h1
      have hna : a ≠ f.next := hn a (by simp)
      simp only [upd, if_neg hna, if_true, e, e', ne_eq, not_false_eq_true, and_self, if_true] at h1
      cases h1
      dsimp only
      rw [upd_same]
      have : (A ++ [a]).find? (fun x => ((alloc f i (f.parent a)).insn x).op != .phi) = none := by
        rw [List.find?_eq_none]
        intro x hx
        rw [hs.insn]
        simp only [upd, if_neg (hn x hx)]
        rcases List.mem_append.1 hx with h | h
        · simp [hp e x h]
        · rw [List.mem_singleton.1 h]; simp [e]
      simp only [placeBb, this]
      simp
  · exact createAt_back h hl hA e (hn a (by simp))

end Verif.Guard
