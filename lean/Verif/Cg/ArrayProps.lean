import Verif.Cg.SpillArray
import Verif.Cg.SpillProps
import Verif.Cg.LowerReady
import Verif.Spec.Arrays
import Verif.Stack.Props
/-!
# Arrays get their place on the stack
-/
namespace Verif.Cg
open Verif Verif.IR Verif.Edit Verif.Loc
open Verif.Norm (VrPos)

theorem arrSize_ok {i : Insn} (h0 : 0 < arrBytes i) (h1 : arrBytes i + 7 < 2 ^ 32) :
    ∃ n : BitVec 32, arrSize i = .ok n ∧ arrBytes i ≤ n.toNat := by
  unfold arrSize arrBytes at *
  have key : ∀ m : BitVec 32, m.toNat = elemBytes i.vrType → ∃ n : BitVec 32, (if i.aux * m = 0 then (.err : Out (BitVec 32)) else .ok ((i.aux * m + 7) &&& ~~~7)) = .ok n ∧
      i.aux.toNat * elemBytes i.vrType ≤ n.toNat := by
    intro m hm
    have e1 : (i.aux * m).toNat = i.aux.toNat * elemBytes i.vrType := by
      rw [BitVec.toNat_mul, hm, Nat.mod_eq_of_lt (by omega)]
    rw [if_neg (fun h => by rw [h] at e1; simp at e1; omega)]
    refine ⟨_, rfl, ?_⟩
    rw [← e1]
    generalize i.aux * m = a at *
    rw [Stack.round8 a (by omega)]
    omega
  cases e : i.vrType <;> rw [e] at key h0 <;> simp only [Stack.sizeOf, Out.ok_bind] <;> first | exact key _ rfl | (simp [elemBytes] at h0)

theorem arrays_ok {R : List Nat} : ∀ (xs : List Nat) (s : Cg) (off : Int), Base s.f R → PosOk s.pos off → FreshV s →
    (∀ x ∈ xs, (s.f.insn x).op = .allocarray → (s.pos x).allocated = false ∧ 0 < arrBytes (s.f.insn x) ∧ arrBytes (s.f.insn x) + 7 < 2 ^ 32) → xs.Nodup →
    ∃ s' off', spillArrays xs s off = .ok (s', off') ∧ s'.f = s.f ∧ off' ≤ off ∧ PosOk s'.pos off' ∧ FreshV s' ∧
      (∀ (W : World) τ, Loc.Keeps W s.f (places s.pos) s'.f (places s'.pos) τ) ∧
      (∀ x ∈ xs, (s.f.insn x).op = .allocarray → OnStack s' x off' off) ∧
      (∀ x ∈ xs, ∀ y ∈ xs, x ≠ y → (s.f.insn x).op = .allocarray → (s.f.insn y).op = .allocarray →
        OnStack s' x off' (s'.pos y).spilled ∨ OnStack s' y off' (s'.pos x).spilled) ∧
      (∀ x, x ∉ xs ∨ (s.f.insn x).op ≠ .allocarray → s'.pos x = s.pos x)
  | [], s, off, hB, hp, hF, _, _ => ⟨s, off, rfl, rfl, Int.le_refl _, hp, hF, fun _ _ => keeps_refl, by simp, by simp, fun _ _ => rfl⟩
  | x :: xs, s, off, hB, hp, hF, hx, hn => by
    obtain ⟨hxn, hn⟩ := List.nodup_cons.1 hn
    unfold spillArrays
    by_cases ho : (s.f.insn x).op = .allocarray
    · obtain ⟨h1, h2, h3⟩ := hx x List.mem_cons_self ho
      obtain ⟨n, e1, e2⟩ := arrSize_ok h2 h3
      have hlt : newSpill off n.toNat < off := by unfold newSpill; omega
      have h0 := hp.1
      obtain ⟨s', off', e, hf, hle, hp', hF', hk, hs, hd, hr⟩ := arrays_ok xs ⟨s.f, upd s.pos x { s.pos x with allocated := true, spilled := newSpill off n.toNat }⟩ (newSpill off n.toNat) hB
        (posOk_upd hp hlt x) (fresh_upd hF x _) (fun y hy hyo => by
          have := hx y (List.mem_cons_of_mem _ hy) hyo
          dsimp only
          rw [upd_ne _ _ (fun h : y = x => hxn (by rw [← h]; exact hy))]
          exact this) hn
      dsimp only at hf hs hd hr hk
      have ex : s'.pos x = { s.pos x with allocated := true, spilled := newSpill off n.toNat } := by rw [hr x (.inl hxn), upd_same]
      refine ⟨s', off', ?_, hf, by omega, hp', hF', fun W τ => ?_, fun y hy hyo => ?_, fun y hy z hz hyz hyo hzo => ?_, fun y hy => ?_⟩
      · rw [if_pos ho, e1, Out.ok_bind]; exact e
      · refine keeps_trans (alloc_keeps hB.flow hp hlt h1 ?_ W τ) (hk W τ)
        have lv : places s.pos x = virt x := by unfold places; rw [h1]; rfl
        rw [lv]
        exact hF x
      · rcases List.mem_cons.1 hy with rfl | hy
        · refine ⟨by rw [ex], by rw [ex]; exact hle, ?_⟩
          rw [ex, hf]
          show newSpill off n.toNat + _ ≤ _
          unfold newSpill; omega
        · obtain ⟨a, b, c⟩ := hs y hy hyo
          exact ⟨a, b, by omega⟩
      · by_cases ey : y = x
        · have hz' : z ∈ xs := (List.mem_cons.1 hz).resolve_left (fun h => hyz (ey.trans h.symm))
          refine .inr ?_
          rw [ey, ex]
          exact hs z hz' hzo
        · have hy' : y ∈ xs := (List.mem_cons.1 hy).resolve_left ey
          by_cases ez : z = x
          · refine .inl ?_
            rw [ez, ex]
            exact hs y hy' hyo
          · exact hd y hy' z ((List.mem_cons.1 hz).resolve_left ez) hyz hyo hzo
      · have hyx : y ≠ x := by
          rintro rfl
          rcases hy with h | h
          · exact h List.mem_cons_self
          · exact h ho
        rw [hr y (hy.imp (fun h hm => h (List.mem_cons_of_mem _ hm)) id), upd_ne _ _ hyx]
    · rw [if_neg ho]
      obtain ⟨s', off', e, hf, hle, hp', hF', hk, hs, hd, hr⟩ := arrays_ok xs s off hB hp hF (fun y hy => hx y (List.mem_cons_of_mem _ hy)) hn
      refine ⟨s', off', e, hf, hle, hp', hF', hk, fun y hy hyo => ?_, fun y hy z hz hyz hyo hzo => ?_, fun y hy => ?_⟩
      · rcases List.mem_cons.1 hy with rfl | hy
        · exact absurd hyo ho
        · exact hs y hy hyo
      · rcases List.mem_cons.1 hy with rfl | hy
        · exact absurd hyo ho
        · rcases List.mem_cons.1 hz with rfl | hz
          · exact absurd hzo ho
          · exact hd y hy z hz hyz hyo hzo
      · exact hr y (hy.imp (fun h hm => h (List.mem_cons_of_mem _ hm)) id)

end Verif.Cg
