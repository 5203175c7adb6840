import Verif.Show.Insn
/-!
# The text of an instruction says what it is: the operation
-/
namespace Verif.Show
open Verif Verif.IR Verif.Edit
open Verif.Opts (Str)
open Verif.Tool (str dec hex int isHexDigit Stops dec_spec hex_spec dec_inj hex_inj int_inj int32_inj stops_lit stops_str num_ne)

/-- What the text of an instruction starts with: a word (0), an operand (1), a minus (2). -/
def cls : Str → Nat
  | '-' :: _ => 2
  | '0' :: _ => 1
  | '_' :: _ => 1
  | 'R' :: _ => 1
  | '%' :: _ => 1
  | 'u' :: _ => 1
  | 'h' :: 'o' :: _ => 1
  | 'a' :: 'r' :: 'g' :: _ => 1
  | _ => 0

def word (s : Str) : Str := s.takeWhile Char.isLower

def wordOf : Op → Str
  | .alloc => str "alloc" | .allocarray => str "allocarray" | .getelemptr => str "getelemptr" | .store => str "store" | .load => str "load" | .loadimm => str "loadimm"
  | .storeraw => str "storeraw" | .loadraw => str "loadraw" | .htole => str "htole" | .htobe => str "htobe" | .add => str "add" | .sub => str "sub" | .mul => str "mul" | .div => str "div"
  | .or => str "or" | .and => str "and" | .lsh => str "lsh" | .arsh => str "arsh" | .rsh => str "rsh" | .mod => str "mod" | .xor => str "xor" | .call => str "call" | .ret => str "ret"
  | .throw => str "throw" | .ja => str "ja" | .jeq => str "jeq" | .jgt => str "jgt" | .jge => str "jge" | .jlt => str "jlt" | .jle => str "jle" | .jne => str "jne" | .jsge => str "jsge"
  | .jsle => str "jsle" | .jsgt => str "jsgt" | .jslt => str "jslt" | .phi => str "phi" | .assign => str "1" | .neg => str "2" | .reg => str "3" | .funarg => str "4" | .ecall => str "5"

def ops : List Op := [.alloc, .allocarray, .getelemptr, .store, .load, .loadimm, .storeraw, .loadraw, .neg, .htole, .htobe, .add, .sub, .mul, .div, .or, .and, .lsh, .arsh, .rsh, .mod, .xor,
  .call, .ret, .throw, .ja, .jeq, .jgt, .jge, .jlt, .jle, .jne, .jsge, .jsle, .jsgt, .jslt, .phi, .assign, .reg, .funarg, .ecall]

theorem mem_ops (o : Op) : o ∈ ops := by cases o <;> decide

theorem wordOf_inj (a b : Op) (h : wordOf a = wordOf b) : a = b := by
  have : ∀ a ∈ ops, ∀ b ∈ ops, wordOf a = wordOf b → a = b := by decide +kernel
  exact this a (mem_ops a) b (mem_ops b) h

theorem alu_word {o : Op} {name : Str} (h : aluName o = some name ∨ jmpName o = some name) (X : Str) : cls (name ++ '(' :: X) = 0 ∧ word (name ++ '(' :: X) = wordOf o := by
  cases o <;> rcases h with h | h <;> first | (cases h; exact ⟨rfl, rfl⟩) | cases h

theorem wid_head (a : AluTy) : ∃ s, widText a = '(' :: s := by cases a <;> exact ⟨_, rfl⟩

variable {nm bt nm' bt' : Nat → Str}

theorem tok_cls {v : Val} (p : Pos) (h : ∀ x, v = .insn x → NameLike (nm x)) (ht : Told v) (r : Str) : cls (tok nm v p ++ r) = 1 := by
  cases v with
  | const k c ct b =>
    cases k
    · have : ∃ s, constText c ct b = '0' :: s ∨ constText c ct b = '_' :: s := by
        obtain ⟨d, s, e, hd⟩ := const_head (c := c) (told_known ht)
        rcases hd with hd | hd <;> subst hd
        · exact ⟨s, .inl e⟩
        · exact ⟨s, .inr e⟩
      obtain ⟨s, e | e⟩ := this
      · show cls ((constText c ct b ++ posText p) ++ r) = 1
        rw [e]; rfl
      · show cls ((constText c ct b ++ posText p) ++ r) = 1
        rw [e]; rfl
    · rfl
    · rfl
  | insn x =>
    obtain ⟨n, -, e | e | e⟩ := h x rfl
    all_goals
      show cls ((nm x ++ posText p) ++ r) = 1
      rw [e]; rfl
  | undef => rfl

/-- What the text starts with says which operation it is. -/
inductive Key (o : Op) (s : Str) : Prop
  | assign : o = .assign → cls s = 1 → Key o s
  | neg : o = .neg → cls s = 2 → Key o s
  | word : cls s = 0 → word s = wordOf o → Key o s

theorem Key.eq {o o' : Op} {s : Str} (h : Key o s) (h' : Key o' s) : o = o' := by
  cases h with
  | assign a b =>
    cases h' with
    | assign c d => rw [a, c]
    | neg c d => rw [b] at d; cases d
    | word c d => rw [b] at c; cases c
  | neg a b =>
    cases h' with
    | assign c d => rw [b] at d; cases d
    | neg c d => rw [a, c]
    | word c d => rw [b] at c; cases c
  | word a b =>
    cases h' with
    | assign c d => rw [a] at d; cases d
    | neg c d => rw [a] at d; cases d
    | word c d => exact wordOf_inj _ _ (b.symm.trans d)

theorem ends_word {r : Str} (h : Ends r) (s : Str) (hs : s.all Char.isLower = true) : word (s ++ r) = s := by
  unfold word
  rw [List.takeWhile_append_of_pos (fun c hc => List.all_eq_true.1 hs c hc)]
  rcases h with h | ⟨q, h⟩ <;> rw [h]
  · exact List.append_nil _
  · exact List.append_nil _

theorem first_ok {i : Insn} {g : Val → Str} {s : Str} (h : first i g = .ok s) : ∃ v vs, i.vals = v :: vs ∧ s = g v := by
  unfold first at h
  split at h
  · cases h; exact ⟨_, _, by assumption, rfl⟩
  · cases h

theorem text_key {vp : Nat → Pos} {ap : Pos} {i : Insn} {s r : Str} (h : Says nm bt i) (hr : Ends r) (e : insnText nm bt vp ap i = .ok s) : Key i.op (s ++ r) := by
  have ha := h.vals
  unfold insnText at e
  split at e
  case h_1 ho =>
    obtain ⟨t, -, e⟩ := Out.bind_eq_ok.1 e
    cases e; rw [ho]; exact .word rfl rfl
  case h_2 ho =>
    obtain ⟨t, -, e⟩ := Out.bind_eq_ok.1 e
    cases e; rw [ho]; exact .word rfl rfl
  case h_3 ho =>
    split at e
    · cases e; rw [ho]; exact .word rfl rfl
    · cases e
  case h_4 ho =>
    obtain ⟨v, vs, -, e⟩ := first_ok e
    subst e; rw [ho]; exact .word rfl rfl
  case h_5 ho =>
    obtain ⟨t, -, e⟩ := Out.bind_eq_ok.1 e
    cases e; rw [ho]; exact .word rfl rfl
  case h_6 ho =>
    obtain ⟨t, -, e⟩ := Out.bind_eq_ok.1 e
    cases e; rw [ho]; exact .word rfl rfl
  case h_7 ho =>
    obtain ⟨t, -, e⟩ := Out.bind_eq_ok.1 e
    obtain ⟨v, vs, -, e⟩ := first_ok e
    subst e; rw [ho]; exact .word rfl rfl
  case h_8 ho =>
    split at e
    · cases e; rw [ho]; exact .word rfl rfl
    · cases e
  case h_9 ho =>
    obtain ⟨v, vs, -, e⟩ := first_ok e
    subst e; rw [ho]; exact .neg rfl rfl
  case h_10 ho =>
    obtain ⟨v, vs, -, e⟩ := first_ok e
    subst e; rw [ho]; exact .word rfl rfl
  case h_11 ho =>
    obtain ⟨v, vs, -, e⟩ := first_ok e
    subst e; rw [ho]; exact .word rfl rfl
  case h_12 ho => cases e; rw [ho]; exact .word rfl rfl
  case h_13 ho => cases e; rw [ho]; exact .word rfl rfl
  case h_14 ho =>
    cases e; rw [ho]
    exact .word rfl (ends_word hr (str "throw") (by decide))
  case h_15 ho => cases e; rw [ho]; exact .word rfl rfl
  case h_16 ho =>
    cases e; rw [ho]
    cases hp : i.phi with
    | nil => exact .word rfl (ends_word hr (str "phi") (by decide))
    | cons o os => exact .word rfl rfl
  case h_17 ho =>
    obtain ⟨v, vs, ev, e⟩ := first_ok e
    have hm : v ∈ shown i := by simp [shown, ho, ev]
    subst e; rw [ho]
    exact .assign rfl (tok_cls _ (fun x hx => h.names x (hx ▸ hm)) (h.told v hm) r)
  case h_18 ho => simp [arity, ho] at ha
  case h_19 ho => simp [arity, ho] at ha
  case h_20 ho => cases e
  case h_21 o =>
    have key : ∀ {name t : Str}, aluText nm vp i name = .ok t → ∃ X, t = name ++ '(' :: X := by
      intro name t e
      unfold aluText at e
      split at e
      · cases e
        obtain ⟨w, hw⟩ := wid_head i.aluOp
        rw [hw]
        exact ⟨_, rfl⟩
      · cases e
    split at e
    · rename_i name hn
      obtain ⟨X, rfl⟩ := key e
      rw [List.append_assoc, List.cons_append]
      exact .word (alu_word (.inl hn) _).1 (alu_word (.inl hn) _).2
    · split at e
      · rename_i name hn
        obtain ⟨t, e1, e⟩ := Out.bind_eq_ok.1 e
        obtain ⟨X, rfl⟩ := key e1
        cases e
        rw [List.append_assoc, List.append_assoc, List.cons_append]
        exact .word (alu_word (.inr hn) _).1 (alu_word (.inr hn) _).2
      · cases e

end Verif.Show
