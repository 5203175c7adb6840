import Verif.Count.Model
import Verif.Spec.Counter
import Verif.Guard.Err
import Verif.Guard.Insert
import Verif.IR.Steps
/-!
# What one counter looks like
-/
namespace Verif.Count
open Verif Verif.IR Verif.Edit Verif.Guard
set_option linter.unusedSimpArgs false

/-- The counter of block `b` in `g`, compared with the old function `f`. -/
structure New (f g : Fn) (a : Nat) (v : Val) (lim : BitVec 32) (b t e l ad s j : Nat) : Prop where
  site : Site g a b t e l ad s j v lim
  inF : b ∈ f.allBbs
  hl : f.next ≤ l
  had : f.next ≤ ad
  hs : f.next ≤ s
  hj : f.next ≤ j
  errNew : e ∉ f.allBbs
  errBody : ∀ x ∈ g.body e, f.next ≤ x
  split : ∃ A B, f.body b = A ++ B ∧ g.body b = A ++ [l, ad, s, j] ∧
    ((B = [] ∧ f.succs b = [t]) ∨ ∃ x, B = [x] ∧ isJmp (f.insn x).op = true ∧ t ∉ f.allBbs ∧ g.body t = [x] ∧ g.preds t = [b])

/-- `g` is `f` with a counter in `b`. -/
structure One (f : Fn) (a : Nat) (v : Val) (lim : BitVec 32) (b : Nat) (g : Fn) (t e l ad s j : Nat) : Prop where
  shape : Shape g
  next : f.next ≤ g.next
  insn : ∀ x < f.next, g.insn x = f.insn x
  sub : ∀ c ∈ f.allBbs, c ∈ g.allBbs
  entry : g.entry = f.entry
  fixed : g.sp = f.sp ∧ g.args = f.args
  body : ∀ c ∈ f.allBbs, c ≠ b → g.body c = f.body c
  succs : ∀ c ∈ f.allBbs, c ≠ b → g.succs c = f.succs c
  predsLen : ∀ c ∈ f.allBbs, (g.preds c).length = (f.preds c).length
  origin : ∀ c ∈ f.allBbs, ∀ p ∈ g.preds c, p ∈ f.preds c ∨ (p ∉ f.allBbs ∧ p ∈ g.allBbs ∧ b ∈ f.preds c)
  new : ∀ c ∈ g.allBbs, c ∉ f.allBbs → g.preds c = [b] ∧ (c = t ∨ c = e)
  nw : New f g a v lim b t e l ad s j
  stores : ∀ x, x < g.next → f.next ≤ x → (g.insn x).op = .store → x = s

theorem ends_of_isJmp {o : Op} : isJmp o = ends o := by cases o <;> rfl

/-- Three new instructions between `A` and `B`. -/
structure Three (f : Fn) (b : Nat) (A B : List Nat) (i1 i2 i3 : Insn) (g : Fn) : Prop where
  shape : Shape g
  insn : g.insn = upd (upd (upd f.insn f.next i1) (f.next + 1) i2) (f.next + 2) i3
  next : g.next = f.next + 3
  parent : g.parent = upd (upd (upd f.parent f.next b) (f.next + 1) b) (f.next + 2) b
  bodyB : g.body b = A ++ f.next :: (f.next + 1) :: (f.next + 2) :: B
  body : ∀ c, c ≠ b → g.body c = f.body c
  preds : g.preds = f.preds
  succs : g.succs = f.succs
  allBbs : g.allBbs = f.allBbs
  entry : g.entry = f.entry
  sp : g.sp = f.sp
  args : g.args = f.args

theorem three_of {f f1 f2 f3 : Fn} {b : Nat} {A B : List Nat} {i1 i2 i3 : Insn} (hs : Shape f) (hb : b ∈ f.allBbs) (hl : f.body b = A ++ B)
    (h1 : Added f i1 b f1) (hl1 : f1.body b = A ++ f.next :: B)
    (h2 : Added f1 i2 b f2) (hl2 : f2.body b = A ++ f.next :: (f.next + 1) :: B)
    (h3 : Added f2 i3 b f3) (hl3 : f3.body b = A ++ f.next :: (f.next + 1) :: (f.next + 2) :: B)
    (hi1 : ∀ y, .insn y ∈ operands i1 → Live f y) (hi2 : ∀ y, .insn y ∈ operands i2 → Live f1 y) (hi3 : ∀ y, .insn y ∈ operands i3 → Live f2 y)
    (hp1 : plain i1.op = true) (hp2 : plain i2.op = true) (hp3 : plain i3.op = true)
    (hB : ∀ y ∈ B, (f.insn y).op ≠ .phi) (hA : ∀ y ∈ A, ends (f.insn y).op = false) : Three f b A B i1 i2 i3 f3 := by
  have hphi : ∀ {o : Op}, plain o = true → o ≠ .phi ∧ ends o = false ∧ o ≠ .ja ∧ o.condJmp = false := by intro o h; cases o <;> simp_all [plain, straight, ends, Norm.Op.condJmp]
  have hlt : ∀ y ∈ A ++ B, y < f.next := fun y hy => lt_of_body hs.tidy hb (by rw [hl]; exact hy)
  have e1 : ∀ y ∈ A ++ B, f1.insn y = f.insn y := fun y hy => by rw [h1.insn, upd_ne _ _ (by have := hlt y hy; omega)]
  have e2 : ∀ y ∈ A ++ B, f2.insn y = f.insn y := fun y hy => by rw [h2.insn, h1.next, upd_ne _ _ (by have := hlt y hy; omega), e1 y hy]
  have n1 : f1.insn f.next = i1 := by rw [h1.insn, upd_same]
  have n2 : f2.insn f.next = i1 := by rw [h2.insn, h1.next, upd_ne _ _ (by omega), n1]
  have n3 : f2.insn (f.next + 1) = i2 := by rw [h2.insn, h1.next, upd_same]
  have s1 : Shape f1 := shape_added hs h1 hb hl hl1 hi1 (hphi hp1).1 hB hA (fun h => by rw [(hphi hp1).2.1] at h; cases h)
    ⟨fun h => absurd h (hphi hp1).2.2.1, fun h => by rw [(hphi hp1).2.2.2] at h; cases h⟩
  have s2 : Shape f2 := shape_added (A := A ++ [f.next]) (B := B) s1 h2 (by rw [h1.allBbs]; exact hb) (by rw [hl1]; simp) (by rw [hl2, h1.next]; simp) hi2 (hphi hp2).1
    (fun y hy => by rw [e1 y (List.mem_append_right _ hy)]; exact hB y hy)
    (by
      intro y hy
      rcases List.mem_append.1 hy with h | h
      · rw [e1 y (List.mem_append_left _ h)]; exact hA y h
      · rw [List.mem_singleton.1 h, n1]; exact (hphi hp1).2.1) (fun h => by rw [(hphi hp2).2.1] at h; cases h)
    ⟨fun h => absurd h (hphi hp2).2.2.1, fun h => by rw [(hphi hp2).2.2.2] at h; cases h⟩
  have s3 : Shape f3 := shape_added (A := A ++ [f.next, f.next + 1]) (B := B) s2 h3 (by rw [h2.allBbs, h1.allBbs]; exact hb) (by rw [hl2]; simp)
    (by rw [hl3, h2.next, h1.next]; simp) hi3 (hphi hp3).1
    (fun y hy => by rw [e2 y (List.mem_append_right _ hy)]; exact hB y hy)
    (by
      intro y hy
      rcases List.mem_append.1 hy with h | h
      · rw [e2 y (List.mem_append_left _ h)]; exact hA y h
      · simp only [List.mem_cons, List.not_mem_nil, or_false] at h
        rcases h with h | h
        · rw [h, n2]; exact (hphi hp1).2.1
        · rw [h, n3]; exact (hphi hp2).2.1) (fun h => by rw [(hphi hp3).2.1] at h; cases h)
    ⟨fun h => absurd h (hphi hp3).2.2.1, fun h => by rw [(hphi hp3).2.2.2] at h; cases h⟩
  refine ⟨s3, ?_, ?_, ?_, hl3, ?_, ?_, ?_, ?_, ?_, ?_, ?_⟩
  · rw [h3.insn, h2.insn, h1.insn, h2.next, h1.next]
  · rw [h3.next, h2.next, h1.next]
  · rw [h3.parent, h2.parent, h1.parent, h2.next, h1.next]
  · intro c hc; rw [h3.body c hc, h2.body c hc, h1.body c hc]
  · rw [h3.preds, h2.preds, h1.preds]
  · rw [h3.succs, h2.succs, h1.succs]
  · rw [h3.allBbs, h2.allBbs, h1.allBbs]
  · rw [h3.entry, h2.entry, h1.entry]
  · rw [h3.sp, h2.sp, h1.sp]
  · rw [h3.args, h2.args, h1.args]

theorem Three.insn_old {f g : Fn} {b : Nat} {A B : List Nat} {i1 i2 i3 : Insn} (T : Three f b A B i1 i2 i3 g) {x : Nat} (hx : x < f.next) :
    g.insn x = f.insn x := by
  rw [T.insn, upd_ne _ _ (by omega), upd_ne _ _ (by omega), upd_ne _ _ (by omega)]
theorem Three.insn1 {f g : Fn} {b : Nat} {A B : List Nat} {i1 i2 i3 : Insn} (T : Three f b A B i1 i2 i3 g) : g.insn f.next = i1 := by
  rw [T.insn, upd_ne _ _ (by omega), upd_ne _ _ (by omega), upd_same]
theorem Three.insn2 {f g : Fn} {b : Nat} {A B : List Nat} {i1 i2 i3 : Insn} (T : Three f b A B i1 i2 i3 g) : g.insn (f.next + 1) = i2 := by
  rw [T.insn, upd_ne _ _ (by omega), upd_same]
theorem Three.insn3 {f g : Fn} {b : Nat} {A B : List Nat} {i1 i2 i3 : Insn} (T : Three f b A B i1 i2 i3 g) : g.insn (f.next + 2) = i3 := by
  rw [T.insn, upd_same]

theorem mem_notin {A : List Nat} {x n : Nat} (h : ∀ y ∈ A, y < n) (hx : n ≤ x) : x ∉ A := fun hm => by have := h x hm; omega

/-- A counter in front of a jump. -/
theorem bump_one {f g : Fn} {x a : Nat} {v : Val} {lim : BitVec 32} (hs : Shape f) {b : Nat} (hb : b ∈ f.allBbs) (hx : x ∈ f.body b)
    (hj : isJmp (f.insn x).op = true) (ha : Live f a) (hv : ∀ y, v ≠ .insn y) (h : bump f x a v lim = .ok g) :
    ∃ t e l ad s j, One f a v lim b g t e l ad s j := by
  obtain ⟨A, B, hl⟩ := List.append_of_mem hx
  have hB : B = [] := hs.last b hb A x B hl (by rw [← ends_of_isJmp]; exact hj)
  subst hB
  have hpar := hs.tidy.parent b hb x hx
  have hnd := hs.tidy.nodup b hb
  rw [hl] at hnd
  have hxA : x ∉ A := fun hm => (List.nodup_append.1 hnd).2.2 x hm x (by simp) rfl
  have hlt : ∀ y ∈ A ++ [x], y < f.next := fun y hy => lt_of_body hs.tidy hb (by rw [hl]; exact hy)
  have hxl := hlt x (by simp)
  have hxphi : (f.insn x).op ≠ .phi := by intro e; rw [e] at hj; cases hj
  unfold bump at h
  obtain ⟨f1, c1, h⟩ := Out.bind_eq_ok.1 h
  obtain ⟨f2, c2, h⟩ := Out.bind_eq_ok.1 h
  obtain ⟨f3, c3, h⟩ := Out.bind_eq_ok.1 h
  obtain ⟨⟨n, e, f4⟩, c4, c5⟩ := Out.bind_eq_ok.1 h
  clear h
  dsimp only at c5
  have a1 := added_createAt c1 (by rw [hpar]; exact hx)
  have b1 := createAt_front c1 (by rw [hpar]; exact hl) hxA hxphi (by omega)
  rw [hpar] at a1 b1
  have p1 : f1.parent f.next = b := by rw [a1.parent, upd_same]
  have i1 : f1.insn f.next = mkLoad (.insn a) := by rw [a1.insn, upd_same]
  have hAn : f.next ∉ A := mem_notin (fun y hy => hlt y (List.mem_append_left _ hy)) (Nat.le_refl _)
  have a2 := added_createAt c2 (by rw [p1, b1]; simp)
  have b2 := createAt_back c2 (by rw [p1]; exact b1) hAn (by rw [i1]; simp [mkLoad]) (by rw [a1.next]; omega)
  rw [p1] at a2 b2
  rw [a1.next] at b2
  have p2 : f2.parent f1.next = b := by rw [a2.parent, upd_same]
  have i2 : f2.insn f1.next = mkBin .add .w64 (.insn f.next) v := by rw [a2.insn, upd_same]
  have a3 := added_createAt c3 (by rw [p2, b2, a1.next]; simp)
  have b3 := createAt_back (A := A ++ [f.next]) (B := [x]) c3 (by rw [p2, b2, a1.next]; simp) (by
    rw [a1.next]
    simp only [List.mem_append, List.mem_singleton, not_or]
    exact ⟨mem_notin (fun y hy => hlt y (List.mem_append_left _ hy)) (by omega), by omega⟩) (by rw [i2]; simp [mkBin]) (by rw [a2.next]; omega)
  rw [p2] at a3 b3
  rw [a2.next, a1.next] at b3
  have T : Three f b A [x] (mkLoad (.insn a)) (mkBin .add .w64 (.insn f.next) v) (mkStore a (.insn f1.next)) f3 := by
    have hb1 : b ∈ f1.allBbs := by rw [a1.allBbs]; exact hb
    refine three_of hs hb hl a1 b1 a2 b2 a3 (by rw [b3]; simp) ?_ ?_ ?_ rfl rfl rfl ?_ ?_
    · intro y hy
      simp [operands, mkLoad, raw] at hy
      rw [hy]; exact ha
    · intro y hy
      simp [operands, mkBin, raw] at hy
      rw [a1.live hb]
      rcases hy with h | h
      · exact .inl h
      · exact absurd h.symm (hv y)
    · intro y hy
      simp [operands, mkStore, raw] at hy
      rw [a2.live hb1, a1.live hb]
      rcases hy with h | h
      · rw [h]; exact .inr (.inr ha)
      · rw [h]; exact .inl rfl
    · intro y hy; rw [List.mem_singleton.1 hy]; exact hxphi
    · intro y hy
      cases he : ends (f.insn y).op with
      | false => rfl
      | true =>
        obtain ⟨C, D, rfl⟩ := List.append_of_mem hy
        have := hs.last b hb C y (D ++ [x]) (by rw [hl]; simp) he
        simp at this
  have hs3 := T.shape
  have hb3 : b ∈ f3.allBbs := by rw [T.allBbs]; exact hb
  have hn2 : f2.next = f.next + 2 := by rw [a2.next, a1.next]
  rw [hn2] at c4 c5
  rw [a1.next] at c5 T
  have G : Guard f3 b n e ((A ++ [f.next, f.next + 1]) ++ [f.next + 2]) [x] (mkJbin .jgt .w64 (.insn (f.next + 1)) (const32 lim) n e) g :=
    errJump_spec hs3 hb3 (by rw [T.bodyB]; simp) (by rw [T.insn3]; simp [mkStore]) c4 c5 rfl rfl rfl
  have hsg : Shape g := G.shape hs3 (by
    intro y hy
    rw [refs_pos] at hy
    simp [operands, mkJbin, raw, const32] at hy
    rw [hy]
    exact .inr (.inr ⟨b, hb3, by rw [T.bodyB]; simp⟩))
  have hn3 := T.next
  have hold : ∀ y, y < f3.next → g.insn y = f3.insn y := fun y hy => G.insn_old hy
  have hbodyB : g.body b = A ++ [f.next, f.next + 1, f.next + 2, f3.next + 1] := by
    rw [G.body b hb3, if_pos rfl]; simp
  have hfN : n ∉ f.allBbs := by rw [← T.allBbs]; exact G.freshN
  have hfE : e ∉ f.allBbs := by rw [← T.allBbs]; exact G.freshE
  have hpN : g.preds n = [b] := by rw [G.preds, if_pos (.inl rfl)]
  have hpE : g.preds e = [b] := by rw [G.preds, if_pos (.inr rfl)]
  refine ⟨n, e, f.next, f.next + 1, f.next + 2, f3.next + 1, ?_⟩
  refine ⟨hsg, by rw [G.next, hn3]; omega, fun y hy => by rw [hold y (by omega), T.insn_old hy], fun c hc => G.mem_all.2 (.inl (by rw [T.allBbs]; exact hc)),
    by rw [G.entry, T.entry], ⟨by rw [G.sp, T.sp], by rw [G.args, T.args]⟩, ?_, ?_, ?_, ?_, ?_, ?_, ?_⟩
  · intro c hc hcb
    rw [G.body c (by rw [T.allBbs]; exact hc), if_neg hcb, T.body c hcb]
  · intro c hc hcb
    rw [G.succs, if_neg hcb, if_neg (fun (h : c = n) => hfN (h ▸ hc)), if_neg (fun (h : c = e) => hfE (h ▸ hc)), T.succs]
  · intro c hc
    rw [G.preds, if_neg (fun (h : c = n ∨ c = e) => h.elim (fun h => hfN (h ▸ hc)) (fun h => hfE (h ▸ hc))), T.succs, T.preds]
    split
    · rename_i hm
      have hbm : b ∈ f.preds c := (hs.graph.sym b hb c hc).1 hm
      rw [List.length_append, List.length_erase_of_mem hbm]
      have := List.length_pos_of_mem hbm
      simp; omega
    · rfl
  · intro c hc p hp
    rw [G.preds, if_neg (fun (h : c = n ∨ c = e) => h.elim (fun h => hfN (h ▸ hc)) (fun h => hfE (h ▸ hc))), T.succs, T.preds] at hp
    split at hp
    · rename_i hm
      have hbm : b ∈ f.preds c := (hs.graph.sym b hb c hc).1 hm
      rcases List.mem_append.1 hp with h | h
      · exact .inl (List.mem_of_mem_erase h)
      · rw [List.mem_singleton.1 h]
        exact .inr ⟨hfN, G.mem_all.2 (.inr (.inl rfl)), hbm⟩
    · exact .inl hp
  · intro c hc hcf
    rcases G.mem_all.1 hc with h | h | h
    · rw [T.allBbs] at h; exact absurd h hcf
    · rw [h]; exact ⟨hpN, .inl rfl⟩
    · rw [h]; exact ⟨hpE, .inr rfl⟩
  · refine ⟨⟨G.mem_all.2 (.inl hb3), ?_, ?_, ?_, G.insn_j, ?_, G.ne, ⟨A, hbodyB⟩, ⟨f3.next, G.bodyE, G.insn_t⟩, G.mem_all.2 (.inr (.inr rfl))⟩, hb, by omega, by omega, by omega, by omega, hfE, ?_,
      ⟨A, [x], hl, hbodyB, .inr ⟨x, rfl, hj, hfN, G.bodyN, hpN⟩⟩⟩
    · rw [hold _ (by omega), T.insn1]
    · rw [hold _ (by omega), T.insn2]
    · rw [hold _ (by omega), T.insn3]
    · rw [G.succs, if_pos rfl]
    · intro y hy; rw [G.bodyE] at hy; rw [List.mem_singleton.1 hy]; omega
  · intro y hy hyn hop
    have hcase : y = f.next ∨ y = f.next + 1 ∨ y = f.next + 2 ∨ y = f3.next ∨ y = f3.next + 1 := by
      rw [G.next] at hy
      omega
    rcases hcase with h | h | h | h | h
    · rw [h, hold _ (by omega), T.insn1] at hop; simp [mkLoad] at hop
    · rw [h, hold _ (by omega), T.insn2] at hop; simp [mkBin] at hop
    · exact h
    · rw [h, G.insn_t] at hop; simp [mkThrow] at hop
    · rw [h, G.insn_j] at hop; simp [mkJbin] at hop

theorem addUsers_congr (x : Nat) : ∀ (vs : List Val) {f g : Fn}, f.users = g.users →
    (vs.foldl (fun g v => addUser g v x) f).users = (vs.foldl (fun g v => addUser g v x) g).users := by
  intro vs
  induction vs with
  | nil => exact fun h => h
  | cons v vs ih =>
    intro f g h
    apply ih
    cases v <;> simp only [addUser, h]

/-- A counter at the end of a block without a jump. -/
theorem bumpEnd_one {f g : Fn} {a : Nat} {v : Val} {lim : BitVec 32} (hs : Shape f) {b : Nat} (hb : b ∈ f.allBbs)
    (hj : ∀ x, (f.body b).getLast? = some x → isJmp (f.insn x).op = false) (ha : Live f a) (hv : ∀ y, v ≠ .insn y) (h : bumpEnd f b a v lim = .ok g) :
    ∃ t e l ad s j, One f a v lim b g t e l ad s j := by
  have hlt : ∀ y ∈ f.body b, y < f.next := fun y hy => lt_of_body hs.tidy hb hy
  have hplain : ∀ y ∈ f.body b, ends (f.insn y).op = false := by
    intro y hy
    cases he : ends (f.insn y).op with
    | false => rfl
    | true =>
      obtain ⟨C, D, hl⟩ := List.append_of_mem hy
      have := hs.last b hb C y D hl he
      subst this
      have := hj y (by rw [hl]; simp)
      rw [ends_of_isJmp, he] at this
      cases this
  unfold bumpEnd at h
  split at h
  rotate_left
  · cases h
  rename_i t hsucc
  obtain ⟨f2, c2, h⟩ := Out.bind_eq_ok.1 h
  obtain ⟨f3, c3, h⟩ := Out.bind_eq_ok.1 h
  obtain ⟨f5, c5, h⟩ := Out.bind_eq_ok.1 h
  cases h
  have a1 := added_createBb f (mkLoad (.insn a)) b .back
  have b1 : (createBb f (mkLoad (.insn a)) b .back).body b = f.body b ++ [f.next] := by
    unfold createBb
    dsimp only
    rw [upd_same, (alloc_same f (mkLoad (.insn a)) b).body]
    rfl
  generalize createBb f (mkLoad (.insn a)) b .back = f1 at *
  have p1 : f1.parent f.next = b := by rw [a1.parent, upd_same]
  have i1 : f1.insn f.next = mkLoad (.insn a) := by rw [a1.insn, upd_same]
  have a2 := added_createAt c2 (by rw [p1, b1]; simp)
  have b2 := createAt_back (A := f.body b) (B := []) c2 (by rw [p1]; exact b1) (mem_notin hlt (Nat.le_refl _)) (by rw [i1]; simp [mkLoad]) (by rw [a1.next]; omega)
  rw [p1] at a2 b2
  rw [a1.next] at b2
  have p2 : f2.parent f1.next = b := by rw [a2.parent, upd_same]
  have i2 : f2.insn f1.next = mkBin .add .w64 (.insn f.next) v := by rw [a2.insn, upd_same]
  have a3 := added_createAt c3 (by rw [p2, b2, a1.next]; simp)
  have b3 := createAt_back (A := f.body b ++ [f.next]) (B := []) c3 (by rw [p2, b2, a1.next]; simp) (by
    rw [a1.next]
    simp only [List.mem_append, List.mem_singleton, not_or]
    exact ⟨mem_notin hlt (by omega), by omega⟩) (by rw [i2]; simp [mkBin]) (by rw [a2.next]; omega)
  rw [p2] at a3 b3
  rw [a2.next, a1.next] at b3
  have hb1 : b ∈ f1.allBbs := by rw [a1.allBbs]; exact hb
  have T : Three f b (f.body b) [] (mkLoad (.insn a)) (mkBin .add .w64 (.insn f.next) v) (mkStore a (.insn f1.next)) f3 := by
    refine three_of hs hb (by simp) a1 b1 a2 b2 a3 (by rw [b3]; simp) ?_ ?_ ?_ rfl rfl rfl (by simp) hplain
    · intro y hy
      simp [operands, mkLoad, raw] at hy
      rw [hy]; exact ha
    · intro y hy
      simp [operands, mkBin, raw] at hy
      rw [a1.live hb]
      rcases hy with h | h
      · exact .inl h
      · exact absurd h.symm (hv y)
    · intro y hy
      simp [operands, mkStore, raw] at hy
      rw [a2.live hb1, a1.live hb]
      rcases hy with h | h
      · rw [h]; exact .inr (.inr ha)
      · rw [h]; exact .inl rfl
  have hs3 := T.shape
  have hb3 : b ∈ f3.allBbs := by rw [T.allBbs]; exact hb
  have hn3 := T.next
  have hn2 : f2.next = f.next + 2 := by rw [a2.next, a1.next]
  rw [hn2, a1.next] at c5
  rw [a1.next] at T
  have hfE := fresh_not_mem f3
  have hfE' : freshBb f3 ∉ f.allBbs := by rw [← T.allBbs]; exact hfE
  have hw := withErr_spec f3
  change createAt (withErr f3) (mkJbin .jgt .w64 (.insn (f.next + 1)) (const32 lim) t (freshBb f3)) (f.next + 2) .back = .ok f5 at c5
  generalize he : freshBb f3 = e at *
  have hbe : b ≠ e := fun h => hfE (h ▸ hb3)
  have s4 : Shape (withErr f3) := by
    have h0 := added_createBb (newBb f3) mkThrow e .back
    have hbd : (newBb f3).body e = [] := by rw [← he]; exact upd_same ..
    have hin : e ∈ (newBb f3).allBbs := by rw [← he]; simp [newBb]
    have : withErr f3 = createBb (newBb f3) mkThrow e .back := by unfold withErr; rw [he]
    rw [this]
    refine shape_added (A := []) (B := []) (shape_newBb hs3) h0 hin (by rw [hbd]; rfl) ?_ ?_ (by simp [mkThrow]) (by simp) (by simp) (fun _ => rfl) ⟨by simp [mkThrow], by simp [mkThrow, Norm.Op.condJmp]⟩
    · rw [← this, hw.2.2.2.2.2.2.1, upd_same]; rfl
    · intro y hy; simp [operands, mkThrow, raw] at hy
  have hall4 : ∀ c, c ∈ (withErr f3).allBbs ↔ c ∈ f.allBbs ∨ c = e := by intro c; rw [hw.2.2.2.2.2.1, T.allBbs]; simp
  have s4' : Shape (connect (withErr f3) b e) := shape_connect s4 ((hall4 b).2 (.inl hb)) ((hall4 e).2 (.inr rfl))
  have hpp : (withErr f3).parent (f.next + 2) = b := by
    rw [hw.2.2.2.2.2.2.2.1, upd_ne _ _ (by omega), T.parent, upd_same]
  have hbb : (withErr f3).body b = (f.body b ++ [f.next, f.next + 1]) ++ [f.next + 2] := by
    rw [hw.2.2.2.2.2.2.1, upd_ne _ _ hbe, T.bodyB]; simp
  have hins4 : ∀ y, y < f3.next → (withErr f3).insn y = f3.insn y := fun y hy => by rw [hw.1, upd_ne _ _ (by omega)]
  have a5 := added_createAt c5 (by rw [hpp, hbb]; simp)
  have b5 := createAt_back (A := f.body b ++ [f.next, f.next + 1]) (B := []) c5 (by rw [hpp, hbb]) (by
    simp only [List.mem_append, List.mem_cons, List.not_mem_nil, or_false, not_or]
    exact ⟨mem_notin hlt (by omega), by omega, by omega⟩) (by rw [hins4 _ (by omega), T.insn3]; simp [mkStore]) (by rw [hw.2.1]; omega)
  rw [hpp] at a5 b5
  have hn4 : (withErr f3).next = f.next + 4 := by rw [hw.2.1]; omega
  rw [hn4] at b5
  have hS4 : (withErr f3).succs b = [t] := by rw [hw.2.2.2.2.2.2.2.2.1, upd_ne _ _ hbe, T.succs, hsucc]
  have htf : t ∈ f.allBbs := (hs.graph.succs b hb).2 t (by rw [hsucc]; simp)
  have hte : t ≠ e := fun h => hfE' (h ▸ htf)
  have hSb : (connect (withErr f3) b e).succs b = [t, e] := by
    simp only [connect, upd_same, hS4]
    simp [pushU, hte.symm]
  have a6 : Added (connect (withErr f3) b e) (mkJbin .jgt .w64 (.insn (f.next + 1)) (const32 lim) t e) b (connect f5 b e) := by
    refine ⟨a5.insn, ?_, a5.next, a5.parent, a5.bodyB, a5.bodyNodup, a5.body, ?_, ?_, a5.allBbs, a5.entry, a5.sp, a5.args⟩
    · change f5.users = _
      rw [a5.users]
      unfold alloc
      exact addUsers_congr _ _ rfl
    · simp only [connect, a5.preds]
    · simp only [connect, a5.succs]
  have hsg : Shape (connect f5 b e) := by
    refine shape_added (A := f.body b ++ [f.next, f.next + 1, f.next + 2]) (B := []) s4' a6 ((hall4 b).2 (.inl hb))
      (by change (withErr f3).body b = _; rw [hbb]; simp) (by change f5.body b = _ ++ (withErr f3).next :: []; rw [b5, hn4]; simp) ?_ (by simp [mkJbin]) (by simp) ?_ (fun _ => rfl)
      ⟨by simp [mkJbin], fun _ => by rw [hSb]; simp [mkJbin]⟩
    · intro y hy
      simp [operands, mkJbin, raw, const32] at hy
      rw [hy]
      exact .inr (.inr ⟨b, (hall4 b).2 (.inl hb), by change _ ∈ (withErr f3).body b; rw [hbb]; simp⟩)
    · intro y hy
      change ends ((withErr f3).insn y).op = false
      rcases List.mem_append.1 hy with h | h
      · have := hlt y h
        rw [hins4 y (by omega), T.insn_old this]; exact hplain y h
      · simp only [List.mem_cons, List.not_mem_nil, or_false] at h
        rcases h with h | h | h
        · rw [h, hins4 _ (by omega), T.insn1]; rfl
        · rw [h, hins4 _ (by omega), T.insn2]; rfl
        · rw [h, hins4 _ (by omega), T.insn3]; rfl
  have hold : ∀ y, y < f3.next → (connect f5 b e).insn y = f3.insn y := fun y hy => by
    rw [a6.insn]
    change upd (withErr f3).insn (withErr f3).next _ y = _
    rw [upd_ne _ _ (by omega), hins4 y hy]
  have hT : (connect f5 b e).insn f3.next = mkThrow := by
    rw [a6.insn]
    change upd (withErr f3).insn (withErr f3).next _ _ = _
    rw [upd_ne _ _ (by omega), hw.1, upd_same]
  have hJ : (connect f5 b e).insn (f.next + 4) = mkJbin .jgt .w64 (.insn (f.next + 1)) (const32 lim) t e := by
    rw [a6.insn]
    change upd (withErr f3).insn (withErr f3).next _ _ = _
    rw [hn4, upd_same]
  have hbodyB : (connect f5 b e).body b = f.body b ++ [f.next, f.next + 1, f.next + 2, f.next + 4] := by
    change f5.body b = _
    rw [b5]; simp
  have hbodyE : (connect f5 b e).body e = [f3.next] := by
    change f5.body e = _
    rw [a5.body e (fun h => hbe h.symm), hw.2.2.2.2.2.2.1, upd_same]
  have hall : ∀ c, c ∈ (connect f5 b e).allBbs ↔ c ∈ f.allBbs ∨ c = e := by
    intro c
    change c ∈ f5.allBbs ↔ _
    rw [a5.allBbs]; exact hall4 c
  have hpre : ∀ c ∈ f.allBbs, (connect f5 b e).preds c = f.preds c := by
    intro c hc
    have hce : c ≠ e := fun h => hfE' (h ▸ hc)
    simp only [connect, upd_ne _ _ hce, a5.preds, hw.2.2.2.2.2.2.2.2.2, T.preds]
  have hpE : (connect f5 b e).preds e = [b] := by
    simp only [connect, upd_same, a5.preds, hw.2.2.2.2.2.2.2.2.2]
    simp [pushU]
  have hsuc : ∀ c ∈ f.allBbs, c ≠ b → (connect f5 b e).succs c = f.succs c := by
    intro c hc hcb
    have hce : c ≠ e := fun h => hfE' (h ▸ hc)
    simp only [connect, upd_ne _ _ hcb, a5.succs, hw.2.2.2.2.2.2.2.2.1, upd_ne _ _ hce, T.succs]
  have hentry : (connect f5 b e).entry = f.entry := by
    change f5.entry = _
    rw [a5.entry, hw.2.2.2.2.1, T.entry]
  have hnext : (connect f5 b e).next = f.next + 5 := by
    rw [a6.next]
    change (withErr f3).next + 1 = _
    omega
  refine ⟨t, e, f.next, f.next + 1, f.next + 2, f.next + 4, hsg, by omega, fun y hy => by rw [hold y (by omega), T.insn_old hy], fun c hc => (hall c).2 (.inl hc), hentry,
    ⟨?_, ?_⟩, ?_, hsuc, fun c hc => by rw [hpre c hc], fun c hc p hp => .inl (by rw [hpre c hc] at hp; exact hp), ?_, ?_, ?_⟩
  · change f5.sp = _
    rw [a5.sp, hw.2.2.1, T.sp]
  · change f5.args = _
    rw [a5.args, hw.2.2.2.1, T.args]
  · intro c hc hcb
    have hce : c ≠ e := fun h => hfE' (h ▸ hc)
    change f5.body c = _
    rw [a5.body c hcb, hw.2.2.2.2.2.2.1, upd_ne _ _ hce, T.body c hcb]
  · intro c hc hcf
    rcases (hall c).1 hc with h | h
    · exact absurd h hcf
    · rw [h]; exact ⟨hpE, .inr rfl⟩
  · refine ⟨⟨(hall b).2 (.inl hb), ?_, ?_, ?_, hJ, ?_, hte, ⟨_, hbodyB⟩, ⟨f3.next, hbodyE, hT⟩, (hall e).2 (.inr rfl)⟩, hb, by omega, by omega, by omega, by omega, hfE', ?_,
      ⟨f.body b, [], by simp, hbodyB, .inl ⟨rfl, hsucc⟩⟩⟩
    · rw [hold _ (by omega), T.insn1]
    · rw [hold _ (by omega), T.insn2]
    · rw [hold _ (by omega), T.insn3]
    · simp only [connect, upd_same, a5.succs, hS4]
      simp [pushU, hte.symm]
    · intro y hy; rw [hbodyE] at hy; rw [List.mem_singleton.1 hy]; omega
  · intro y hy hyn hop
    have hcase : y = f.next ∨ y = f.next + 1 ∨ y = f.next + 2 ∨ y = f3.next ∨ y = f.next + 4 := by
      omega
    rcases hcase with h | h | h | h | h
    · rw [h, hold _ (by omega), T.insn1] at hop; simp [mkLoad] at hop
    · rw [h, hold _ (by omega), T.insn2] at hop; simp [mkBin] at hop
    · exact h
    · rw [h, hT] at hop; simp [mkThrow] at hop
    · rw [h, hJ] at hop; simp [mkJbin] at hop

end Verif.Count
