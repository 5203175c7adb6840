import Verif.Guard.Sim
/-!
# `errorBlock` followed by a jump
-/
namespace Verif.Guard
open Verif Verif.IR Verif.Edit
set_option linter.unusedSimpArgs false

theorem errJump_spec {f f4 g : Fn} {s b n e : Nat} {A tl : List Nat} {i : Insn} (hs : Shape f) (hb : b ∈ f.allBbs)
    (hl : f.body b = A ++ s :: tl) (hphi : (f.insn s).op ≠ .phi) (he : errorBlock f s .back = .ok (n, e, f4))
    (hc : createAt f4 i s .back = .ok g) (h1 : i.bb1 = n) (h2 : i.bb2 = e) (h3 : i.op.condJmp = true) :
    Guard f b n e (A ++ [s]) tl i g := by
  have hsb : s ∈ f.body b := by rw [hl]; simp
  have hpar := hs.tidy.parent b hb s hsb
  have hnd := hs.tidy.nodup b hb
  rw [hl] at hnd
  have hsA : s ∉ A := fun hm => (List.nodup_append.1 hnd).2.2 s hm s (by simp) rfl
  have hst : s ∉ tl := (List.nodup_cons.1 (List.nodup_append.1 hnd).2.1).1
  have hcut := cut hsA tl
  unfold errorBlock at he
  obtain ⟨f1, hsp, he⟩ := Out.bind_eq_ok.1 he
  cases he
  rw [hpar] at hc
  rcases split_spec hs.graph (by rw [hpar]; exact hb) (by rw [hpar]; exact hsb) hsp with ⟨h', _⟩ | ⟨_, S⟩
  · cases h'
  · rw [hpar, hl, hcut.1, hcut.2] at S
    simp only [List.tail_cons] at S
    have hw := withErr_spec f1
    change createAt (connect (withErr f1) b (freshBb f1)) i s .back = .ok g at hc
    have heb : b ≠ freshBb f1 := fun e => fresh_not_mem f1 (by rw [← e, S.allBbs]; exact List.mem_append_left _ hb)
    have hlt : s < f.next := lt_of_body hs.tidy hb hsb
    have hpp1 : (connect (withErr f1) b (freshBb f1)).parent s = b := by
      change (withErr f1).parent s = b
      rw [hw.2.2.2.2.2.2.2.1, upd_ne _ _ (by rw [S.next]; omega), S.parent, if_neg hst, hpar]
    have hbody1 : (connect (withErr f1) b (freshBb f1)).body b = A ++ [s] := by
      change (withErr f1).body b = A ++ [s]
      rw [hw.2.2.2.2.2.2.1, upd_ne _ _ heb, S.body b hb, if_pos rfl]
    have hA3 := added_createAt hc (by rw [hpp1, hbody1]; simp)
    have hB3 := createAt_back hc (A := A) (B := []) (by rw [hpp1, hbody1]) hsA (by
      change ((withErr f1).insn s).op ≠ .phi
      rw [hw.1, upd_ne _ _ (by rw [S.next]; omega), S.insn]; exact hphi) (by
      change s ≠ (withErr f1).next
      rw [hw.2.1, S.next]; omega)
    rw [hpp1] at hA3 hB3
    have S' : Split f b (freshBb f) (A ++ [s]) tl f1 := S
    exact guard_mk S' hb hA3.insn hA3.next (hA3.sp.trans hw.2.2.1) (hA3.args.trans hw.2.2.2.1) (hA3.entry.trans hw.2.2.2.2.1) hA3.allBbs
      (fun c hc => hA3.body c hc) (by rw [hB3]; simp; rfl)
      hA3.parent hA3.succs hA3.preds h1 h2 h3 hs.graph

end Verif.Guard
