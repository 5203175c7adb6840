import Verif.Spec.Ecall
import Verif.Guard.Err
import Verif.Guard.Insert
import Verif.Guard.Run
/-!
# Chains of blocks under the edits of the pass
-/
namespace Verif.Ecall
open Verif Verif.IR Verif.Edit Verif.Guard

/-- `y` in front of `x`. -/
def ins (y x : Nat) (l : List Nat) : List Nat := l.flatMap fun z => if z = x then [y, z] else [z]

theorem ins_append (y x : Nat) (l r : List Nat) : ins y x (l ++ r) = ins y x l ++ ins y x r := by unfold ins; rw [List.flatMap_append]

theorem ins_cons (y x z : Nat) (l : List Nat) : ins y x (z :: l) = (if z = x then [y, z] else [z]) ++ ins y x l := by unfold ins; rw [List.flatMap_cons]

theorem ins_out {y x : Nat} : ∀ {l : List Nat}, x ∉ l → ins y x l = l
  | [], _ => rfl
  | z :: l, h => by
    rw [ins_cons, if_neg (fun e => h (by rw [e]; exact List.mem_cons_self)), ins_out (fun h' => h (List.mem_cons_of_mem _ h'))]
    rfl

theorem ins_at {y x : Nat} {A B : List Nat} (hA : x ∉ A) (hB : x ∉ B) : ins y x (A ++ x :: B) = A ++ y :: x :: B := by
  rw [ins_append, ins_out hA, ins_cons, if_pos rfl, ins_out hB]
  rfl

theorem ins_pre {y x : Nat} {pre : Nat → List Nat} (hp : ∀ z, x ∉ pre z) : ∀ (l : List Nat),
    ins y x (l.flatMap fun z => pre z ++ [z]) = l.flatMap fun z => upd pre x (pre x ++ [y]) z ++ [z]
  | [] => rfl
  | z :: l => by
    rw [List.flatMap_cons, List.flatMap_cons, ins_append, ins_pre hp l, ins_append, ins_out (hp z)]
    congr 1
    rw [ins_cons]
    by_cases e : z = x
    · subst e
      rw [if_pos rfl, upd_same]
      simp [ins]
    · rw [if_neg e, upd_ne _ _ e]
      simp [ins]

theorem Chain.mem {g : Fn} {S : List Nat} {b : Nat} {l : List Nat} (h : Chain g S b l) : b ∈ g.allBbs := by
  cases h <;> assumption

theorem Chain.inBody {g : Fn} {S : List Nat} {b : Nat} {l : List Nat} (h : Chain g S b l) {x : Nat} (hx : x ∈ l) : InBody g x := by
  induction h with
  | last hb hl _ => exact ⟨_, hb, by rw [hl]; exact hx⟩
  | cut hb hl _ _ _ _ _ _ _ _ ih =>
    rcases List.mem_append.1 hx with h1 | h1
    · exact ⟨_, hb, by rw [hl]; exact List.mem_append_left _ h1⟩
    · rcases List.mem_cons.1 h1 with h2 | h2
      · exact ⟨_, hb, by rw [hl, h2]; simp⟩
      · exact ih h2

/-- An instruction `x` that is neither a check nor a throw. -/
def Inner (i : Insn) : Prop := i.op ≠ .jeq ∧ i.op ≠ .throw

/-- A new instruction in front of `x`. -/
theorem Chain.insert {g g' : Fn} {S : List Nat} {b x y : Nat} {l : List Nat} (h : Chain g S b l) (hg : Graph g) (hx : Inner (g.insn x))
    (hin : ∀ c ∈ g.allBbs, ∀ z ∈ g.body c, g'.insn z = g.insn z) (hbody : ∀ c ∈ g.allBbs, g'.body c = ins y x (g.body c))
    (hs : g'.succs = g.succs) (hp : g'.preds = g.preds) (ha : g'.allBbs = g.allBbs) (he : g'.entry = g.entry) : Chain g' S b (ins y x l) := by
  induction h with
  | last hb hl h1 => exact .last (by rw [ha]; exact hb) (by rw [hbody _ hb, hl]) (by rw [hs, h1])
  | @cut b c j n e t l r hb hl hj h1 h2 h3 h4 h5 h6 _ ih =>
    have hje : j ≠ x := fun e => hx.1 (by rw [← e, hj]; rfl)
    have hte : t ≠ x := fun e => hx.2 (by rw [← e]; exact h5)
    have heb : e ∈ g.allBbs := (hg.succs b hb).2 e (by rw [h1]; simp)
    have e1 : ins y x [j] = [j] := ins_out (fun h => hje (List.mem_singleton.1 h).symm)
    have e2 : ins y x [t] = [t] := ins_out (fun h => hte (List.mem_singleton.1 h).symm)
    rw [ins_append, ins_cons, if_neg hje]
    exact .cut (by rw [ha]; exact hb) (by rw [hbody _ hb, hl, ins_append, e1]) (by rw [hin b hb j (by rw [hl]; simp)]; exact hj) (by rw [hs]; exact h1)
      (by rw [hp]; exact h2) h3 (by rw [hbody _ heb, h4, e2]) (by rw [hin e heb t (by rw [h4]; simp)]; exact h5) (by rw [he]; exact h6) ih

/-- Another instruction in place of `x`. -/
theorem Chain.patch {g g' : Fn} {S : List Nat} {b x : Nat} {l : List Nat} (h : Chain g S b l) (hx : Inner (g.insn x))
    (hin : ∀ z, z ≠ x → g'.insn z = g.insn z) (hbody : g'.body = g.body)
    (hs : g'.succs = g.succs) (hp : g'.preds = g.preds) (ha : g'.allBbs = g.allBbs) (he : g'.entry = g.entry) : Chain g' S b l := by
  induction h with
  | last hb hl h1 => exact .last (by rw [ha]; exact hb) (by rw [hbody, hl]) (by rw [hs, h1])
  | @cut b c j n e t l r hb hl hj h1 h2 h3 h4 h5 h6 _ ih =>
    have hje : j ≠ x := fun e => hx.1 (by rw [← e, hj]; rfl)
    have hte : t ≠ x := fun e => hx.2 (by rw [← e]; exact h5)
    exact .cut (by rw [ha]; exact hb) (by rw [hbody, hl]) (by rw [hin j hje]; exact hj) (by rw [hs]; exact h1)
      (by rw [hp]; exact h2) h3 (by rw [hbody, h4]) (by rw [hin t hte]; exact h5) (by rw [he]; exact h6) ih

/-- A check in front of `x`. -/
theorem Chain.guard {g g' : Fn} {S : List Nat} {b b' c n e x : Nat} {hd B l : List Nat} (h : Chain g S b l) (hsh : Shape g) (hx : Inner (g.insn x))
    (G : Guard g b' n e hd (x :: B) (nullCheck c n e) g') : Chain g' S b (ins (g.next + 1) x l) := by
  have hxb : x ∈ g.body b' := by rw [G.list]; simp
  have hnd := hsh.tidy.nodup b' G.inF
  rw [G.list] at hnd
  have hxhd : x ∉ hd := fun hm => (List.nodup_append.1 hnd).2.2 x hm x (by simp) rfl
  have hxB : x ∉ B := (List.nodup_cons.1 (List.nodup_append.1 hnd).2.1).1
  have hne : ∀ d ∈ g.allBbs, d ≠ n := fun d hd e => G.freshN (e ▸ hd)
  have hnee : ∀ d ∈ g.allBbs, d ≠ e := fun d hd e => G.freshE (e ▸ hd)
  have hout : ∀ d ∈ g.allBbs, d ≠ b' → x ∉ g.body d := fun d hd hdb hm => hdb (by
    rw [← hsh.tidy.parent d hd x hm, hsh.tidy.parent b' G.inF x hxb])
  have hall : ∀ {d}, d ∈ g.allBbs → d ∈ g'.allBbs := fun h => G.mem_all.2 (.inl h)
  have hnall : n ∈ g'.allBbs := G.mem_all.2 (.inr (.inl rfl))
  have hsu : ∀ d ∈ g.allBbs, d ≠ b' → g'.succs d = g.succs d := fun d hd hdb => by
    rw [G.succs, if_neg hdb, if_neg (hne d hd), if_neg (hnee d hd)]
  have hsb : g'.succs b' = [n, e] := by rw [G.succs, if_pos rfl]
  have hsn : g'.succs n = g.succs b' := by rw [G.succs, if_neg (fun h => hne b' G.inF h.symm), if_pos rfl]
  have hold : ∀ d ∈ g.allBbs, ∀ z ∈ g.body d, g'.insn z = g.insn z := fun d hd z hz => G.insn_old (lt_of_body hsh.tidy hd hz)
  have hpn : g'.preds n = [b'] := by rw [G.preds, if_pos (.inl rfl)]
  have hent : g'.entry ≠ n := by rw [G.entry]; exact hne _ hsh.entry
  induction h with
  | @last b l hb hl h1 =>
    by_cases eb : b = b'
    · subst eb
      have : ins (g.next + 1) x l = hd ++ (g.next + 1) :: (x :: B) := by rw [← hl, G.list, ins_at hxhd hxB]
      rw [this]
      exact .cut (hall hb) (by rw [G.body b hb, if_pos rfl]) G.insn_j hsb hpn G.ne G.bodyE (by rw [G.insn_t]; rfl) hent
        (.last hnall G.bodyN (by rw [hsn, h1]))
    · rw [ins_out (by rw [← hl]; exact hout b hb eb)]
      exact .last (hall hb) (by rw [G.body b hb, if_neg eb, hl]) (by rw [hsu b hb eb, h1])
  | @cut b c' j n' e' t l r hb hl hj h1 h2 h3 h4 h5 h6 hr ih =>
    have hje : j ≠ x := fun e => hx.1 (by rw [← e, hj]; rfl)
    have hte : t ≠ x := fun e => hx.2 (by rw [← e]; exact h5)
    have heb : e' ∈ g.allBbs := (hsh.graph.succs b hb).2 e' (by rw [h1]; simp)
    have hnb : n' ∈ g.allBbs := hr.mem
    have hsame : e' ≠ b' → g'.body e' = [t] := fun h => by rw [G.body e' heb, if_neg h, h4]
    have heb' : e' ≠ b' := fun h => by
      subst h
      rw [h4] at hxb
      exact hte (List.mem_singleton.1 hxb).symm
    have hjb : j ∈ g.body b := by rw [hl]; simp
    have hti : (g'.insn t).op = .throw := by rw [hold e' heb t (by rw [h4]; simp)]; exact h5
    have hji : g'.insn j = nullCheck c' n' e' := by rw [hold b hb j hjb]; exact hj
    by_cases eb : b = b'
    · subst eb
      have hli := G.list
      rw [hl] at hli
      obtain ⟨B', rfl⟩ : ∃ B', B = B' ++ [j] := by
        rcases B.eq_nil_or_concat with rfl | ⟨B', z, rfl⟩
        · have := List.append_inj_right' hli rfl
          exact absurd (by simpa using this) hje
        · refine ⟨B', ?_⟩
          rw [List.concat_eq_append] at hli ⊢
          have h7 : l ++ [j] = (hd ++ x :: B') ++ [z] := by rw [hli]; simp
          have h8 := List.append_inj_right' h7 rfl
          rw [h8]
      have hl2 : l = hd ++ x :: B' := by
        have : l ++ [j] = (hd ++ x :: B') ++ [j] := by rw [hli]; simp
        exact List.append_inj_left' this rfl
      have hxB' : x ∉ B' := fun h => hxB (List.mem_append_left _ h)
      have e1 : ins (g.next + 1) x (l ++ j :: r) = hd ++ (g.next + 1) :: ((x :: B') ++ j :: ins (g.next + 1) x r) := by
        rw [ins_append, hl2, ins_at hxhd hxB', ins_cons, if_neg hje]
        simp
      rw [e1]
      refine .cut (hall hb) (by rw [G.body b hb, if_pos rfl]) G.insn_j hsb hpn G.ne G.bodyE (by rw [G.insn_t]; rfl) hent ?_
      refine .cut hnall (by rw [G.bodyN]; rfl) hji (by rw [hsn, h1]) ?_ h3 (hsame heb') hti (by rw [G.entry]; exact h6) ih
      rw [G.preds, if_neg (fun h => h.elim (hne _ hnb) (hnee _ hnb)), if_pos (by rw [h1]; simp), h2]
      simp
    · rw [ins_append, ins_cons, if_neg hje, ins_out (fun h => hout b hb eb (by rw [hl]; exact List.mem_append_left _ h))]
      refine .cut (hall hb) (by rw [G.body b hb, if_neg eb, hl]) hji (by rw [hsu b hb eb, h1]) ?_ h3 (hsame heb') hti (by rw [G.entry]; exact h6) ih
      rw [G.preds, if_neg (fun h => h.elim (hne _ hnb) (hnee _ hnb)), if_neg, h2]
      intro hm
      have := (hsh.graph.sym b' G.inF n' hnb).1 hm
      rw [h2] at this
      exact eb (List.mem_singleton.1 this).symm

end Verif.Ecall
