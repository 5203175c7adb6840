import Verif.Show.Line
/-!
# The text of an instruction says what it is: all of it
-/
namespace Verif.Show
open Verif Verif.IR Verif.Edit
open Verif.Opts (Str)
open Verif.Tool (str dec hex int isHexDigit Stops dec_spec hex_spec dec_inj hex_inj int_inj int32_inj stops_lit stops_str num_ne)

/-- Operations of their own kind. -/
def odd : List Op := [.neg, .assign, .call, .htobe, .htole, .loadimm, .phi, .ja]

/-- Operations for which the meaning depends on more than the values. -/
def special (o : Op) : Bool := raw o || (aluName o).isSome || (jmpName o).isSome || o.condJmp || odd.contains o

variable {nm bt nm' bt' : Nat → Str} {i j : Insn}

theorem IAlike.plain (ho : i.op = j.op) (hv : All2 (VAlike nm nm') i.vals j.vals) (hs : special i.op = false) : IAlike nm bt nm' bt' i j := by
  simp only [special, Bool.or_eq_false_iff] at hs
  obtain ⟨⟨⟨⟨h1, h2⟩, h3⟩, h4⟩, h5⟩ := hs
  have no : ∀ o : Op, i.op = o → odd.contains o = true → False := by
    intro o e k
    rw [e, k] at h5
    cases h5
  refine ⟨ho, hv, fun k => ?_, fun k => ?_, fun k => ?_, fun k => ?_, fun k => ?_, fun k => ?_, fun k => ?_, fun k => ?_⟩
  · rw [h1] at k; cases k
  · rcases k with k | k | k
    · rw [h2] at k; cases k
    · rw [h3] at k; cases k
    · exact (no _ k rfl).elim
  · exact (no _ k rfl).elim
  · rcases k with k | k | k <;> exact (no _ k rfl).elim
  · exact (no _ k rfl).elim
  · exact (no _ k rfl).elim
  · rcases k with k | k
    · exact (no _ k rfl).elim
    · rw [h4] at k; cases k
  · rw [h4] at k; cases k

theorem one {n : Option Nat} (h : n = some i.vals.length) (hn : n = some 1) : ∃ v, i.vals = [v] := by
  subst hn
  injection h with h
  exact List.length_eq_one_iff.1 h.symm

theorem two {n : Option Nat} (h : n = some i.vals.length) (hn : n = some 2) : ∃ v w, i.vals = [v, w] := by
  subst hn
  injection h with h
  match hv : i.vals, h with
  | [v, w], _ => exact ⟨v, w, rfl⟩

theorem zero {n : Option Nat} (h : n = some i.vals.length) (hn : n = some 0) : i.vals = [] := by
  subst hn
  injection h with h
  exact List.length_eq_zero_iff.1 h.symm

theorem Says.operand {v : Val} (h : Says nm bt i) (hv : v ∈ shown i) : Told v ∧ ∀ x, v = .insn x → NameLike (nm x) := ⟨h.told v hv, fun x e => h.names x (e ▸ hv)⟩

section
variable {vp vp' : Nat → Pos} {ap ap' : Pos} {s s' r q : Str}
variable (hp : ∀ k, PosOk (vp k)) (hp' : ∀ k, PosOk (vp' k)) (ha : PosOk ap) (ha' : PosOk ap') (h : Says nm bt i) (h' : Says nm' bt' j) (hr : Ends r) (hq : Ends q)
  (e : insnText nm bt vp ap i = .ok s) (e' : insnText nm' bt' vp' ap' j = .ok s') (eq : s ++ r = s' ++ q)
include hp hp' h h' hr hq e e' eq

theorem inj_one {o : Op} {l : Str} (ho : i.op = o) (ho' : j.op = o) (hs : ∀ i : Insn, i.op = o → arity i = some 1 ∧ shown i = i.vals.take 1)
    (ht : ∀ (nm bt : Nat → Str) (vp : Nat → Pos) (ap : Pos) (i : Insn), i.op = o → insnText nm bt vp ap i = first i fun v => l ++ tok nm v (vp 0)) : All2 (VAlike nm nm') i.vals j.vals := by
  have hv := h.vals
  have hv' := h'.vals
  rw [(hs i ho).1] at hv
  rw [(hs j ho').1] at hv'
  obtain ⟨v, hv⟩ := one hv rfl
  obtain ⟨w, hw⟩ := one hv' rfl
  rw [ht _ _ _ _ _ ho] at e
  rw [ht _ _ _ _ _ ho'] at e'
  simp only [first, hv, hw] at e e'
  injection e with e
  injection e' with e'
  subst e e'
  have s1 : v ∈ shown i := by rw [(hs i ho).2, hv]; simp
  have s2 : w ∈ shown j := by rw [(hs j ho').2, hw]; simp
  rw [List.append_assoc, List.append_assoc] at eq
  obtain ⟨a, b⟩ := h.operand s1
  obtain ⟨c, d⟩ := h'.operand s2
  rw [hv, hw]
  exact ⟨(tok_cut (hp 0) (hp' 0) b d a c hr.stop hq.stop (List.append_cancel_left eq)).1, trivial⟩

theorem inj_store (ho : i.op = .store) (ho' : j.op = .store) : IAlike nm bt nm' bt' i j := by
  have hv := h.vals
  have hv' := h'.vals
  simp only [arity, ho] at hv
  simp only [arity, ho'] at hv'
  obtain ⟨v, v1, hv⟩ := two hv rfl
  obtain ⟨w, w1, hw⟩ := two hv' rfl
  simp only [insnText, ho, ho', hv, hw] at e e'
  injection e with e
  injection e' with e'
  subst e e'
  have sh : shown i = [v, v1] := by simp [shown, ho, hv]
  have sh' : shown j = [w, w1] := by simp [shown, ho', hw]
  simp only [List.append_assoc] at eq
  obtain ⟨a, b⟩ := h.operand (v := v) (by rw [sh]; simp)
  obtain ⟨c, d⟩ := h'.operand (v := w) (by rw [sh']; simp)
  obtain ⟨a1, b1⟩ := h.operand (v := v1) (by rw [sh]; simp)
  obtain ⟨c1, d1⟩ := h'.operand (v := w1) (by rw [sh']; simp)
  obtain ⟨k1, k2⟩ := tok_cut (hp 0) (hp' 0) b d a c (stop_lit (by decide)) (stop_lit (by decide)) (List.append_cancel_left eq)
  have k3 := (tok_cut (hp 1) (hp' 1) b1 d1 a1 c1 hr.stop hq.stop (List.append_cancel_left k2)).1
  exact .plain (ho.trans ho'.symm) (by rw [hv, hw]; exact ⟨k1, k3, trivial⟩) (by rw [ho]; decide)

theorem inj_gep (ho : i.op = .getelemptr) (ho' : j.op = .getelemptr) : IAlike nm bt nm' bt' i j := by
  have hv := h.vals
  have hv' := h'.vals
  simp only [arity, ho] at hv
  simp only [arity, ho'] at hv'
  obtain ⟨v, v1, hv⟩ := two hv rfl
  obtain ⟨w, w1, hw⟩ := two hv' rfl
  simp only [insnText, ho, ho', hv, hw] at e e'
  injection e with e
  injection e' with e'
  subst e e'
  have sh : shown i = [v, v1] := by simp [shown, ho, hv]
  have sh' : shown j = [w, w1] := by simp [shown, ho', hw]
  simp only [List.append_assoc] at eq
  obtain ⟨a, b⟩ := h.operand (v := v) (by rw [sh]; simp)
  obtain ⟨c, d⟩ := h'.operand (v := w) (by rw [sh']; simp)
  obtain ⟨a1, b1⟩ := h.operand (v := v1) (by rw [sh]; simp)
  obtain ⟨c1, d1⟩ := h'.operand (v := w1) (by rw [sh']; simp)
  obtain ⟨k1, k2⟩ := tok_cut (hp 1) (hp' 1) b1 d1 a1 c1 (stop_lit (by decide)) (stop_lit (by decide)) (List.append_cancel_left eq)
  have k3 := (tok_cut (hp 0) (hp' 0) b d a c hr.stop hq.stop (List.append_cancel_left k2)).1
  exact .plain (ho.trans ho'.symm) (by rw [hv, hw]; exact ⟨k3, k1, trivial⟩) (by rw [ho]; decide)

include ha ha' in
theorem inj_loadraw (ho : i.op = .loadraw) (ho' : j.op = .loadraw) : IAlike nm bt nm' bt' i j := by
  have hv := h.vals
  have hv' := h'.vals
  simp only [arity, ho] at hv
  simp only [arity, ho'] at hv'
  replace hv := zero hv rfl
  replace hv' := zero hv' rfl
  simp only [insnText, ho, ho'] at e e'
  obtain ⟨t, et, e⟩ := Out.bind_eq_ok.1 e
  obtain ⟨t', et', e'⟩ := Out.bind_eq_ok.1 e'
  injection e with e
  injection e' with e'
  subst e e'
  have sh : shown i = [i.addr] := by simp [shown, ho]
  have sh' : shown j = [j.addr] := by simp [shown, ho']
  obtain ⟨a, b⟩ := h.operand (v := i.addr) (by rw [sh]; simp)
  obtain ⟨c, d⟩ := h'.operand (v := j.addr) (by rw [sh']; simp)
  have eq' : str "loadraw " ++ (t ++ (str " " ++ ((tok nm i.addr ap ++ offText i.addrOff i.addrKind) ++ r))) = str "loadraw " ++ (t' ++ (str " " ++ ((tok nm' j.addr ap' ++ offText j.addrOff j.addrKind) ++ q))) := by
    simpa only [List.append_assoc] using eq
  obtain ⟨k1, k2⟩ := cut (vr_free et) (vr_free et') (stop_lit (by decide)) (stop_lit (by decide)) (List.append_cancel_left eq')
  have gs : ∀ {r : Str}, Ends r → Stop gap r := by
    intro r h c s e
    rcases h with h | ⟨q, h⟩ <;> rw [h] at e
    · cases e
    · injection e with e _
      rw [← e]; rfl
  obtain ⟨k3, k4, -⟩ := addr_cut ha ha' b d a c (gs hr) (gs hq) (List.append_cancel_left k2)
  subst k1
  exact ⟨ho.trans ho'.symm, by rw [hv, hv']; trivial, fun _ => ⟨k3, k4, vr_inj et et'⟩, by simp [ho, aluName, jmpName], by simp [ho], by simp [ho], by simp [ho], by simp [ho],
    by simp [ho, Norm.Op.condJmp], by simp [ho, Norm.Op.condJmp]⟩

include ha ha' in
theorem inj_storeraw (ho : i.op = .storeraw) (ho' : j.op = .storeraw) : IAlike nm bt nm' bt' i j := by
  have hv := h.vals
  have hv' := h'.vals
  simp only [arity, ho] at hv
  simp only [arity, ho'] at hv'
  obtain ⟨v, hv⟩ := one hv rfl
  obtain ⟨w, hw⟩ := one hv' rfl
  simp only [insnText, ho, ho', first, hv, hw] at e e'
  obtain ⟨t, et, e⟩ := Out.bind_eq_ok.1 e
  obtain ⟨t', et', e'⟩ := Out.bind_eq_ok.1 e'
  injection e with e
  injection e' with e'
  subst e e'
  have sh : shown i = [i.addr, v] := by simp [shown, ho, hv]
  have sh' : shown j = [j.addr, w] := by simp [shown, ho', hw]
  obtain ⟨a, b⟩ := h.operand (v := i.addr) (by rw [sh]; simp)
  obtain ⟨c, d⟩ := h'.operand (v := j.addr) (by rw [sh']; simp)
  obtain ⟨a1, b1⟩ := h.operand (v := v) (by rw [sh]; simp)
  obtain ⟨c1, d1⟩ := h'.operand (v := w) (by rw [sh']; simp)
  have eq' : str "storeraw " ++ (t ++ (str " " ++ ((tok nm i.addr ap ++ offText i.addrOff i.addrKind) ++ (str " " ++ (tok nm v (vp 0) ++ r))))) =
      str "storeraw " ++ (t' ++ (str " " ++ ((tok nm' j.addr ap' ++ offText j.addrOff j.addrKind) ++ (str " " ++ (tok nm' w (vp' 0) ++ q))))) := by
    simpa only [List.append_assoc] using eq
  obtain ⟨k1, k2⟩ := cut (vr_free et) (vr_free et') (stop_lit (by decide)) (stop_lit (by decide)) (List.append_cancel_left eq')
  obtain ⟨k3, k4, k5⟩ := addr_cut ha ha' b d a c (stop_lit (by decide)) (stop_lit (by decide)) (List.append_cancel_left k2)
  have k6 := (tok_cut (hp 0) (hp' 0) b1 d1 a1 c1 hr.stop hq.stop (List.append_cancel_left k5)).1
  subst k1
  exact ⟨ho.trans ho'.symm, by rw [hv, hw]; exact ⟨k6, trivial⟩, fun _ => ⟨k3, k4, vr_inj et et'⟩, by simp [ho, aluName, jmpName], by simp [ho], by simp [ho], by simp [ho], by simp [ho],
    by simp [ho, Norm.Op.condJmp], by simp [ho, Norm.Op.condJmp]⟩

theorem inj_imm (ho : i.op = .loadimm) (ho' : j.op = .loadimm) : IAlike nm bt nm' bt' i j := by
  have hv := h.vals
  have hv' := h'.vals
  simp only [arity, ho] at hv
  simp only [arity, ho'] at hv'
  replace hv := zero hv rfl
  replace hv' := zero hv' rfl
  simp only [insnText, ho, ho'] at e e'
  obtain ⟨t, et, e⟩ := Out.bind_eq_ok.1 e
  obtain ⟨t', et', e'⟩ := Out.bind_eq_ok.1 e'
  injection e with e
  injection e' with e'
  subst e e'
  have eq' : str "loadimm(" ++ (t ++ (str ")" ++ (str " 0x" ++ (hex i.imm64.toNat ++ r)))) = str "loadimm(" ++ (t' ++ (str ")" ++ (str " 0x" ++ (hex j.imm64.toNat ++ q)))) := by
    have h1 : str ") 0x" = str ")" ++ str " 0x" := by decide
    rw [h1] at eq
    simpa only [List.append_assoc] using eq
  obtain ⟨k1, k2⟩ := imm_inj et et' (List.append_cancel_left eq')
  have k3 := (hex_inj i.imm64.isLt j.imm64.isLt hr.stops hq.stops (List.append_cancel_left k2)).1
  exact ⟨ho.trans ho'.symm, by rw [hv, hv']; trivial, by simp [ho, raw], by simp [ho, aluName, jmpName], by simp [ho], by simp [ho], fun _ => ⟨k1, BitVec.eq_of_toNat_eq k3⟩, by simp [ho],
    by simp [ho, Norm.Op.condJmp], by simp [ho, Norm.Op.condJmp]⟩

theorem inj_call (ho : i.op = .call) (ho' : j.op = .call) : IAlike nm bt nm' bt' i j := by
  simp only [insnText, ho, ho'] at e e'
  injection e with e
  injection e' with e'
  subst e e'
  have sh : shown i = i.vals := by simp [shown, ho]
  have sh' : shown j = j.vals := by simp [shown, ho']
  simp only [List.append_assoc] at eq
  have st : ∀ X : Str, Stops (str "(" ++ X) := fun X => stops_lit (l := str "(") (by decide)
  obtain ⟨k1, k2⟩ := int32_inj (st _) (st _) (List.append_cancel_left eq)
  have k3 := args0_inj hp hp' hr hq i.vals j.vals (fun u hu => h.operand (sh ▸ hu)) (fun u hu => h'.operand (sh' ▸ hu)) (List.append_cancel_left k2)
  exact ⟨ho.trans ho'.symm, k3, by simp [ho, raw], by simp [ho, aluName, jmpName], by simp [ho], fun _ => k1, by simp [ho], by simp [ho],
    by simp [ho, Norm.Op.condJmp], by simp [ho, Norm.Op.condJmp]⟩

theorem inj_ret (ho : i.op = .ret) (ho' : j.op = .ret) : IAlike nm bt nm' bt' i j := by
  have hv := h.vals
  have hv' := h'.vals
  simp only [arity, ho] at hv
  simp only [arity, ho'] at hv'
  obtain ⟨v, hv⟩ := one hv rfl
  obtain ⟨w, hw⟩ := one hv' rfl
  simp only [insnText, ho, ho', hv, hw] at e e'
  injection e with e
  injection e' with e'
  subst e e'
  obtain ⟨a, b⟩ := h.operand (v := v) (by simp [shown, ho, hv])
  obtain ⟨c, d⟩ := h'.operand (v := w) (by simp [shown, ho', hw])
  rw [List.append_assoc, List.append_assoc] at eq
  have k := (tok_cut (hp 0) (hp' 0) b d a c hr.stop hq.stop (List.append_cancel_left eq)).1
  exact .plain (ho.trans ho'.symm) (by rw [hv, hw]; exact ⟨k, trivial⟩) (by rw [ho]; decide)

theorem inj_ja (ho : i.op = .ja) (ho' : j.op = .ja) : IAlike nm bt nm' bt' i j := by
  have hv := h.vals
  have hv' := h'.vals
  simp only [arity, ho] at hv
  simp only [arity, ho'] at hv'
  replace hv := zero hv rfl
  replace hv' := zero hv' rfl
  simp only [insnText, ho, ho'] at e e'
  injection e with e
  injection e' with e'
  subst e e'
  rw [List.append_assoc, List.append_assoc] at eq
  have k := (cut (block_free (h.jumps (.inl ho))) (block_free (h'.jumps (.inl ho'))) hr.stop hq.stop (List.append_cancel_left eq)).1
  exact ⟨ho.trans ho'.symm, by rw [hv, hv']; trivial, by simp [ho, raw], by simp [ho, aluName, jmpName], by simp [ho], by simp [ho], by simp [ho], by simp [ho], fun _ => k, by simp [ho, Norm.Op.condJmp]⟩

theorem inj_phi (ho : i.op = .phi) (ho' : j.op = .phi) : IAlike nm bt nm' bt' i j := by
  have hv := h.vals
  have hv' := h'.vals
  simp only [arity, ho] at hv
  simp only [arity, ho'] at hv'
  replace hv := zero hv rfl
  replace hv' := zero hv' rfl
  simp only [insnText, ho, ho'] at e e'
  injection e with e
  injection e' with e'
  subst e e'
  rw [List.append_assoc, List.append_assoc] at eq
  have sh : ∀ o ∈ i.phi, o.2 ∈ shown i := fun o hm => by simp only [shown, ho]; exact List.mem_map_of_mem hm
  have sh' : ∀ o ∈ j.phi, o.2 ∈ shown j := fun o hm => by simp only [shown, ho']; exact List.mem_map_of_mem hm
  have k := phi_inj hp hp' hr hq i.phi j.phi 0 (fun o hm => ⟨(h.operand (sh o hm)).1, (h.operand (sh o hm)).2, h.labels ho o hm⟩)
    (fun o hm => ⟨(h'.operand (sh' o hm)).1, (h'.operand (sh' o hm)).2, h'.labels ho' o hm⟩) (List.append_cancel_left eq)
  exact ⟨ho.trans ho'.symm, by rw [hv, hv']; trivial, by simp [ho, raw], by simp [ho, aluName, jmpName], by simp [ho], by simp [ho], by simp [ho], fun _ => k, by simp [ho, Norm.Op.condJmp], by simp [ho, Norm.Op.condJmp]⟩

end

/-- Binary operations and conditional jumps. -/
theorem inj_alu {vp vp' : Nat → Pos} (hp : ∀ k, PosOk (vp k)) (hp' : ∀ k, PosOk (vp' k)) (h : Says nm bt i) (h' : Says nm' bt' j) {name t t' X Y : Str}
    (hs : arity i = some 2 ∧ shown i = i.vals.take 2) (hs' : arity j = some 2 ∧ shown j = j.vals.take 2)
    (e : aluText nm vp i name = .ok t) (e' : aluText nm' vp' j name = .ok t') (eq : t ++ X = t' ++ Y) : All2 (VAlike nm nm') i.vals j.vals ∧ i.aluOp = j.aluOp ∧ X = Y := by
  have hv := h.vals
  have hv' := h'.vals
  rw [hs.1] at hv
  rw [hs'.1] at hv'
  obtain ⟨v, v1, hv⟩ := two hv rfl
  obtain ⟨w, w1, hw⟩ := two hv' rfl
  simp only [aluText, hv, hw] at e e'
  injection e with e
  injection e' with e'
  subst e e'
  simp only [List.append_assoc] at eq
  have sh : shown i = [v, v1] := by rw [hs.2, hv]; rfl
  have sh' : shown j = [w, w1] := by rw [hs'.2, hw]; rfl
  obtain ⟨a, b⟩ := h.operand (v := v) (by rw [sh]; simp)
  obtain ⟨c, d⟩ := h'.operand (v := w) (by rw [sh']; simp)
  obtain ⟨a1, b1⟩ := h.operand (v := v1) (by rw [sh]; simp)
  obtain ⟨c1, d1⟩ := h'.operand (v := w1) (by rw [sh']; simp)
  obtain ⟨k0, k⟩ := wid_inj (List.append_cancel_left eq)
  obtain ⟨k1, k2⟩ := tok_cut (hp 0) (hp' 0) b d a c (stop_lit (by decide)) (stop_lit (by decide)) k
  obtain ⟨k3, k4⟩ := tok_cut (hp 1) (hp' 1) b1 d1 a1 c1 (stop_lit (by decide)) (stop_lit (by decide)) (List.append_cancel_left k2)
  exact ⟨by rw [hv, hw]; exact ⟨k1, k3, trivial⟩, k0, List.append_cancel_left k4⟩

/-- Two instructions with the same text are the same, but for names. -/
theorem text_inj {vp vp' : Nat → Pos} {ap ap' : Pos} {s s' r q : Str} (hp : ∀ k, PosOk (vp k)) (hp' : ∀ k, PosOk (vp' k)) (ha : PosOk ap) (ha' : PosOk ap') (h : Says nm bt i) (h' : Says nm' bt' j)
    (hr : Ends r) (hq : Ends q) (e : insnText nm bt vp ap i = .ok s) (e' : insnText nm' bt' vp' ap' j = .ok s') (eq : s ++ r = s' ++ q) : IAlike nm bt nm' bt' i j := by
  have op : i.op = j.op := (text_key h hr e).eq (eq ▸ text_key h' hq e')
  have bin : ∀ {name : Str}, aluName i.op = some name → (∀ (nm bt : Nat → Str) (vp : Nat → Pos) (ap : Pos) (k : Insn), k.op = i.op → insnText nm bt vp ap k = aluText nm vp k name) →
      (∀ k : Insn, k.op = i.op → arity k = some 2 ∧ shown k = k.vals.take 2) → raw i.op = false → i.op.condJmp = false → (∀ o ∈ odd, i.op ≠ o) →
      IAlike nm bt nm' bt' i j := by
    intro name hn ht hs h1 h2 no
    rw [ht _ _ _ _ _ rfl] at e
    rw [ht _ _ _ _ _ op.symm] at e'
    obtain ⟨k1, k2, k3⟩ := inj_alu hp hp' h h' (hs i rfl) (hs j op.symm) e e' eq
    exact ⟨op, k1, by simp [h1], fun _ => k2, fun k => absurd k (no _ (by simp [odd])), fun k => by rcases k with k | k | k <;> exact absurd k (no _ (by simp [odd])), fun k => absurd k (no _ (by simp [odd])),
      fun k => absurd k (no _ (by simp [odd])), fun k => k.elim (fun k => absurd k (no _ (by simp [odd]))) (fun k => by rw [h2] at k; cases k), by simp [h2]⟩
  have jmp : ∀ {name : Str}, (∀ (nm bt : Nat → Str) (vp : Nat → Pos) (ap : Pos) (k : Insn), k.op = i.op → insnText nm bt vp ap k = (aluText nm vp k name).bind fun t => .ok (t ++ (bt k.bb1 ++ (str "/" ++ bt k.bb2)))) →
      (∀ k : Insn, k.op = i.op → arity k = some 2 ∧ shown k = k.vals.take 2) → raw i.op = false → i.op.condJmp = true → (∀ o ∈ odd, i.op ≠ o) →
      IAlike nm bt nm' bt' i j := by
    intro name ht hs h1 h2 no
    rw [ht _ _ _ _ _ rfl] at e
    rw [ht _ _ _ _ _ op.symm] at e'
    obtain ⟨t, et, e⟩ := Out.bind_eq_ok.1 e
    obtain ⟨t', et', e'⟩ := Out.bind_eq_ok.1 e'
    injection e with e
    injection e' with e'
    subst e e'
    have h2' : j.op.condJmp = true := op ▸ h2
    simp only [List.append_assoc] at eq
    obtain ⟨k1, k2, k3⟩ := inj_alu hp hp' h h' (hs i rfl) (hs j op.symm) et et' eq
    obtain ⟨k4, k5⟩ := cut (block_free (h.jumps (.inr h2))) (block_free (h'.jumps (.inr h2'))) (stop_lit (by decide)) (stop_lit (by decide)) k3
    have k6 := (cut (block_free (h.other h2)) (block_free (h'.other h2')) hr.stop hq.stop (List.append_cancel_left k5)).1
    exact ⟨op, k1, by simp [h1], fun _ => k2, fun k => absurd k (no _ (by simp [odd])), fun k => by rcases k with k | k | k <;> exact absurd k (no _ (by simp [odd])), fun k => absurd k (no _ (by simp [odd])),
      fun k => absurd k (no _ (by simp [odd])), fun _ => k4, fun _ => k6⟩
  have hv := h.vals
  have hv' := h'.vals
  have ar : arity i ≠ none := by rw [hv]; simp
  cases ho : i.op with
  | alloc =>
    have ho' := op.symm.trans ho
    exact .plain op (by rw [zero hv (by simp [arity, ho]), zero hv' (by simp [arity, ho'])]; trivial) (by rw [ho]; decide)
  | allocarray =>
    have ho' := op.symm.trans ho
    exact .plain op (by rw [zero hv (by simp [arity, ho]), zero hv' (by simp [arity, ho'])]; trivial) (by rw [ho]; decide)
  | throw =>
    have ho' := op.symm.trans ho
    exact .plain op (by rw [zero hv (by simp [arity, ho]), zero hv' (by simp [arity, ho'])]; trivial) (by rw [ho]; decide)
  | load => exact .plain op (inj_one (l := str "load ") hp hp' h h' hr hq e e' eq ho (op.symm.trans ho) (fun _ k => by simp [arity, shown, k]) (fun _ _ _ _ _ k => by simp only [insnText, k])) (by rw [ho]; decide)
  | neg =>
    have ho' := op.symm.trans ho
    have k := inj_one (l := str "-") hp hp' h h' hr hq e e' eq ho ho' (fun _ k => by simp [arity, shown, k]) (fun _ _ _ _ _ k => by simp only [insnText, k])
    exact ⟨op, k, by simp [ho, raw], fun _ => (h.neg ho).trans (h'.neg ho').symm, by simp [ho], by simp [ho], by simp [ho], by simp [ho], by simp [ho, Norm.Op.condJmp], by simp [ho, Norm.Op.condJmp]⟩
  | assign =>
    have ho' := op.symm.trans ho
    have k := inj_one (l := []) hp hp' h h' hr hq e e' eq ho ho' (fun _ k => by simp [arity, shown, k]) (fun _ _ _ _ _ k => by simp only [insnText, k, List.nil_append])
    exact ⟨op, k, by simp [ho, raw], by simp [ho, aluName, jmpName], fun _ => ⟨h.copy ho, h'.copy ho'⟩, by simp [ho], by simp [ho], by simp [ho], by simp [ho, Norm.Op.condJmp], by simp [ho, Norm.Op.condJmp]⟩
  | htobe =>
    have ho' := op.symm.trans ho
    have k := inj_one (l := str "htobe ") hp hp' h h' hr hq e e' eq ho ho' (fun _ k => by simp [arity, shown, k]) (fun _ _ _ _ _ k => by simp only [insnText, k])
    exact ⟨op, k, by simp [ho, raw], by simp [ho, aluName, jmpName], by simp [ho], fun _ => (h.swap (.inl ho)).trans (h'.swap (.inl ho')).symm, by simp [ho], by simp [ho], by simp [ho, Norm.Op.condJmp], by simp [ho, Norm.Op.condJmp]⟩
  | htole =>
    have ho' := op.symm.trans ho
    have k := inj_one (l := str "htole ") hp hp' h h' hr hq e e' eq ho ho' (fun _ k => by simp [arity, shown, k]) (fun _ _ _ _ _ k => by simp only [insnText, k])
    exact ⟨op, k, by simp [ho, raw], by simp [ho, aluName, jmpName], by simp [ho], fun _ => (h.swap (.inr ho)).trans (h'.swap (.inr ho')).symm, by simp [ho], by simp [ho], by simp [ho, Norm.Op.condJmp], by simp [ho, Norm.Op.condJmp]⟩
  | store => exact inj_store hp hp' h h' hr hq e e' eq ho (op.symm.trans ho)
  | getelemptr => exact inj_gep hp hp' h h' hr hq e e' eq ho (op.symm.trans ho)
  | loadimm => exact inj_imm hp hp' h h' hr hq e e' eq ho (op.symm.trans ho)
  | call => exact inj_call hp hp' h h' hr hq e e' eq ho (op.symm.trans ho)
  | ret => exact inj_ret hp hp' h h' hr hq e e' eq ho (op.symm.trans ho)
  | ja => exact inj_ja hp hp' h h' hr hq e e' eq ho (op.symm.trans ho)
  | phi => exact inj_phi hp hp' h h' hr hq e e' eq ho (op.symm.trans ho)
  | loadraw => exact inj_loadraw hp hp' ha ha' h h' hr hq e e' eq ho (op.symm.trans ho)
  | storeraw => exact inj_storeraw hp hp' ha ha' h h' hr hq e e' eq ho (op.symm.trans ho)
  | reg => exact absurd (by simp [arity, ho]) ar
  | ecall => exact absurd (by simp [arity, ho]) ar
  | funarg => exact absurd (by simp [arity, ho]) ar
  | add => exact bin (name := str "add") (by rw [ho]; rfl) (fun _ _ _ _ k hk => by rw [ho] at hk; simp only [insnText, hk, aluName]) (fun k hk => by rw [ho] at hk; simp [arity, shown, hk]) (by rw [ho]; rfl) (by rw [ho]; rfl) (by rw [ho]; decide)
  | sub => exact bin (name := str "sub") (by rw [ho]; rfl) (fun _ _ _ _ k hk => by rw [ho] at hk; simp only [insnText, hk, aluName]) (fun k hk => by rw [ho] at hk; simp [arity, shown, hk]) (by rw [ho]; rfl) (by rw [ho]; rfl) (by rw [ho]; decide)
  | mul => exact bin (name := str "mul") (by rw [ho]; rfl) (fun _ _ _ _ k hk => by rw [ho] at hk; simp only [insnText, hk, aluName]) (fun k hk => by rw [ho] at hk; simp [arity, shown, hk]) (by rw [ho]; rfl) (by rw [ho]; rfl) (by rw [ho]; decide)
  | div => exact bin (name := str "div") (by rw [ho]; rfl) (fun _ _ _ _ k hk => by rw [ho] at hk; simp only [insnText, hk, aluName]) (fun k hk => by rw [ho] at hk; simp [arity, shown, hk]) (by rw [ho]; rfl) (by rw [ho]; rfl) (by rw [ho]; decide)
  | or => exact bin (name := str "or") (by rw [ho]; rfl) (fun _ _ _ _ k hk => by rw [ho] at hk; simp only [insnText, hk, aluName]) (fun k hk => by rw [ho] at hk; simp [arity, shown, hk]) (by rw [ho]; rfl) (by rw [ho]; rfl) (by rw [ho]; decide)
  | and => exact bin (name := str "and") (by rw [ho]; rfl) (fun _ _ _ _ k hk => by rw [ho] at hk; simp only [insnText, hk, aluName]) (fun k hk => by rw [ho] at hk; simp [arity, shown, hk]) (by rw [ho]; rfl) (by rw [ho]; rfl) (by rw [ho]; decide)
  | lsh => exact bin (name := str "lsh") (by rw [ho]; rfl) (fun _ _ _ _ k hk => by rw [ho] at hk; simp only [insnText, hk, aluName]) (fun k hk => by rw [ho] at hk; simp [arity, shown, hk]) (by rw [ho]; rfl) (by rw [ho]; rfl) (by rw [ho]; decide)
  | arsh => exact bin (name := str "arsh") (by rw [ho]; rfl) (fun _ _ _ _ k hk => by rw [ho] at hk; simp only [insnText, hk, aluName]) (fun k hk => by rw [ho] at hk; simp [arity, shown, hk]) (by rw [ho]; rfl) (by rw [ho]; rfl) (by rw [ho]; decide)
  | rsh => exact bin (name := str "rsh") (by rw [ho]; rfl) (fun _ _ _ _ k hk => by rw [ho] at hk; simp only [insnText, hk, aluName]) (fun k hk => by rw [ho] at hk; simp [arity, shown, hk]) (by rw [ho]; rfl) (by rw [ho]; rfl) (by rw [ho]; decide)
  | mod => exact bin (name := str "mod") (by rw [ho]; rfl) (fun _ _ _ _ k hk => by rw [ho] at hk; simp only [insnText, hk, aluName]) (fun k hk => by rw [ho] at hk; simp [arity, shown, hk]) (by rw [ho]; rfl) (by rw [ho]; rfl) (by rw [ho]; decide)
  | xor => exact bin (name := str "xor") (by rw [ho]; rfl) (fun _ _ _ _ k hk => by rw [ho] at hk; simp only [insnText, hk, aluName]) (fun k hk => by rw [ho] at hk; simp [arity, shown, hk]) (by rw [ho]; rfl) (by rw [ho]; rfl) (by rw [ho]; decide)
  | jeq => exact jmp (name := str "jeq") (fun _ _ _ _ k hk => by rw [ho] at hk; simp only [insnText, hk, aluName, jmpName]; rfl) (fun k hk => by rw [ho] at hk; simp [arity, shown, hk]) (by rw [ho]; rfl) (by rw [ho]; rfl) (by rw [ho]; decide)
  | jgt => exact jmp (name := str "jgt") (fun _ _ _ _ k hk => by rw [ho] at hk; simp only [insnText, hk, aluName, jmpName]; rfl) (fun k hk => by rw [ho] at hk; simp [arity, shown, hk]) (by rw [ho]; rfl) (by rw [ho]; rfl) (by rw [ho]; decide)
  | jge => exact jmp (name := str "jge") (fun _ _ _ _ k hk => by rw [ho] at hk; simp only [insnText, hk, aluName, jmpName]; rfl) (fun k hk => by rw [ho] at hk; simp [arity, shown, hk]) (by rw [ho]; rfl) (by rw [ho]; rfl) (by rw [ho]; decide)
  | jlt => exact jmp (name := str "jlt") (fun _ _ _ _ k hk => by rw [ho] at hk; simp only [insnText, hk, aluName, jmpName]; rfl) (fun k hk => by rw [ho] at hk; simp [arity, shown, hk]) (by rw [ho]; rfl) (by rw [ho]; rfl) (by rw [ho]; decide)
  | jle => exact jmp (name := str "jle") (fun _ _ _ _ k hk => by rw [ho] at hk; simp only [insnText, hk, aluName, jmpName]; rfl) (fun k hk => by rw [ho] at hk; simp [arity, shown, hk]) (by rw [ho]; rfl) (by rw [ho]; rfl) (by rw [ho]; decide)
  | jne => exact jmp (name := str "jne") (fun _ _ _ _ k hk => by rw [ho] at hk; simp only [insnText, hk, aluName, jmpName]; rfl) (fun k hk => by rw [ho] at hk; simp [arity, shown, hk]) (by rw [ho]; rfl) (by rw [ho]; rfl) (by rw [ho]; decide)
  | jsge => exact jmp (name := str "jsge") (fun _ _ _ _ k hk => by rw [ho] at hk; simp only [insnText, hk, aluName, jmpName]; rfl) (fun k hk => by rw [ho] at hk; simp [arity, shown, hk]) (by rw [ho]; rfl) (by rw [ho]; rfl) (by rw [ho]; decide)
  | jsle => exact jmp (name := str "jsle") (fun _ _ _ _ k hk => by rw [ho] at hk; simp only [insnText, hk, aluName, jmpName]; rfl) (fun k hk => by rw [ho] at hk; simp [arity, shown, hk]) (by rw [ho]; rfl) (by rw [ho]; rfl) (by rw [ho]; decide)
  | jsgt => exact jmp (name := str "jsgt") (fun _ _ _ _ k hk => by rw [ho] at hk; simp only [insnText, hk, aluName, jmpName]; rfl) (fun k hk => by rw [ho] at hk; simp [arity, shown, hk]) (by rw [ho]; rfl) (by rw [ho]; rfl) (by rw [ho]; decide)
  | jslt => exact jmp (name := str "jslt") (fun _ _ _ _ k hk => by rw [ho] at hk; simp only [insnText, hk, aluName, jmpName]; rfl) (fun k hk => by rw [ho] at hk; simp [arity, shown, hk]) (by rw [ho]; rfl) (by rw [ho]; rfl) (by rw [ho]; decide)

end Verif.Show
