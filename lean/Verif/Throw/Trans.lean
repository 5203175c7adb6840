import Verif.Throw.Model
import Verif.Guard.Insert
/-!
# What the throw translation inserts
-/
namespace Verif.Throw
open Verif Verif.IR Verif.Edit Verif.Guard

/-- The instructions `N` have been inserted in front of the last instruction `x` of block `b`. -/
structure Grown (f : Fn) (b : Nat) (A N : List Nat) (x : Nat) (g : Fn) : Prop where
  insn : ∀ y, y < f.next → g.insn y = f.insn y
  fresh : ∀ y ∈ N, f.next ≤ y ∧ y < g.next
  nodup : N.Nodup
  body : g.body b = A ++ N ++ [x]
  other : ∀ c, c ≠ b → g.body c = f.body c
  parent : ∀ y, y < f.next → g.parent y = f.parent y
  next : f.next ≤ g.next
  preds : g.preds = f.preds
  succs : g.succs = f.succs
  allBbs : g.allBbs = f.allBbs
  entry : g.entry = f.entry

theorem Grown.nil {f : Fn} {b : Nat} {A : List Nat} {x : Nat} (h : f.body b = A ++ [x]) : Grown f b A [] x f :=
  ⟨fun _ _ => rfl, by simp, by simp, by simp [h], fun _ _ => rfl, fun _ _ => rfl, Nat.le_refl _, rfl, rfl, rfl, rfl⟩

theorem Grown.trans {f g h : Fn} {b : Nat} {A N M : List Nat} {x : Nat} (G : Grown f b A N x g) (H : Grown g b (A ++ N) M x h) : Grown f b A (N ++ M) x h where
  insn y hy := by rw [H.insn y (Nat.lt_of_lt_of_le hy G.next), G.insn y hy]
  fresh y hy := by
    rcases List.mem_append.1 hy with h1 | h1
    · exact ⟨(G.fresh y h1).1, Nat.lt_of_lt_of_le (G.fresh y h1).2 H.next⟩
    · exact ⟨Nat.le_trans G.next (H.fresh y h1).1, (H.fresh y h1).2⟩
  nodup := by
    rw [List.nodup_append]
    refine ⟨G.nodup, H.nodup, fun y hy z hz e => ?_⟩
    have h1 := (G.fresh y hy).2
    have h2 := (H.fresh z hz).1
    omega
  body := by rw [H.body]; simp
  other c hc := by rw [H.other c hc, G.other c hc]
  parent y hy := by rw [H.parent y (Nat.lt_of_lt_of_le hy G.next), G.parent y hy]
  next := Nat.le_trans G.next H.next
  preds := by rw [H.preds, G.preds]
  succs := by rw [H.succs, G.succs]
  allBbs := by rw [H.allBbs, G.allBbs]
  entry := by rw [H.entry, G.entry]

theorem createAt_ok {f : Fn} {i : Insn} {a : Nat} (hp : (f.insn a).op ≠ .phi) (hn : a ≠ f.next) {pos : Pos} (hpos : pos = .front ∨ pos = .back) :
    ∃ g, createAt f i a pos = .ok g := by
  unfold createAt
  have hs := alloc_same f i (f.parent a)
  simp only [placeAt, hs.insn]
  rcases hpos with rfl | rfl
  · simp [upd, hn, hp]
  · simp [upd, hn, hp]

/-- Inserting in front of `x`. -/
theorem grow_front {f : Fn} {i : Insn} {b : Nat} {A : List Nat} {x : Nat} (hb : f.body b = A ++ [x]) (hx : x ∉ A) (hp : f.parent x = b) (hn : x < f.next)
    (ho : (f.insn x).op ≠ .phi) : ∃ g, createAt f i x .front = .ok g ∧ Grown f b A [f.next] x g ∧ g.insn f.next = i ∧ g.next = f.next + 1 ∧ g.parent f.next = b := by
  obtain ⟨g, hg⟩ := createAt_ok (f := f) (i := i) ho (Nat.ne_of_lt hn) (pos := .front) (.inl rfl)
  have hA := added_createAt hg (by rw [hp, hb]; simp)
  have hB := createAt_front (A := A) (B := []) hg (by rw [hp]; exact hb) hx ho (Nat.ne_of_lt hn)
  rw [hp] at hA hB
  refine ⟨g, hg, ?_, by rw [hA.insn, upd_same], hA.next, by rw [hA.parent, upd_same]⟩
  refine ⟨fun y hy => by rw [hA.insn, upd_ne _ _ (by omega)], by simp [hA.next], by simp, by simpa using hB, hA.body, fun y hy => by rw [hA.parent, upd_ne _ _ (by omega)],
    by rw [hA.next]; omega, hA.preds, hA.succs, hA.allBbs, hA.entry⟩

/-- Inserting behind the instruction in front of `x`. -/
theorem grow_back {f : Fn} {i : Insn} {b : Nat} {A : List Nat} {a x : Nat} (hb : f.body b = A ++ [a] ++ [x]) (ha : a ∉ A) (hp : f.parent a = b) (hn : a < f.next)
    (ho : (f.insn a).op ≠ .phi) : ∃ g, createAt f i a .back = .ok g ∧ Grown f b (A ++ [a]) [f.next] x g ∧ g.insn f.next = i ∧ g.next = f.next + 1 ∧ g.parent f.next = b := by
  obtain ⟨g, hg⟩ := createAt_ok (f := f) (i := i) ho (Nat.ne_of_lt hn) (pos := .back) (.inr rfl)
  have hA := added_createAt hg (by rw [hp, hb]; simp)
  have hB := createAt_back (A := A) (B := [x]) hg (by rw [hp, hb]; simp) ha ho (Nat.ne_of_lt hn)
  rw [hp] at hA hB
  refine ⟨g, hg, ?_, by rw [hA.insn, upd_same], hA.next, by rw [hA.parent, upd_same]⟩
  refine ⟨fun y hy => by rw [hA.insn, upd_ne _ _ (by omega)], by simp [hA.next], by simp, by simpa using hB, hA.body, fun y hy => by rw [hA.parent, upd_ne _ _ (by omega)],
    by rw [hA.next]; omega, hA.preds, hA.succs, hA.allBbs, hA.entry⟩

/-- An argument for a new call. -/
theorem addArg {f g : Fn} {b : Nat} {A N : List Nat} {x c : Nat} {v : Val} (G : Grown f b A N x g) (hc : f.next ≤ c) (hl : (g.insn c).vals.length < 5) :
    ∃ h, addCallArg g c v = .ok h ∧ Grown f b A N x h ∧ h.insn c = { g.insn c with vals := (g.insn c).vals ++ [v] } ∧ (∀ y, y ≠ c → h.insn y = g.insn y) ∧ h.next = g.next ∧ h.parent = g.parent := by
  unfold addCallArg
  rw [if_neg (by omega)]
  refine ⟨_, rfl, ?_, by simp [addUser_insn, upd_same], fun y hy => by simp only [addUser_insn]; exact upd_ne _ _ hy, by rw [addUser_next], by rw [addUser_parent]⟩
  refine ⟨fun y hy => ?_, fun y hy => ?_, G.nodup, ?_, fun d hd => ?_, fun y hy => ?_, ?_, ?_, ?_, ?_, ?_⟩
  · rw [addUser_insn]; dsimp only; rw [upd_ne _ _ (by omega)]; exact G.insn y hy
  · rw [addUser_next]; exact G.fresh y hy
  · rw [addUser_body]; exact G.body
  · rw [addUser_body]; exact G.other d hd
  · rw [addUser_parent]; exact G.parent y hy
  · rw [addUser_next]; exact G.next
  · rw [addUser_preds]; exact G.preds
  · rw [addUser_succs]; exact G.succs
  · rw [addUser_allBbs]; exact G.allBbs
  · rw [addUser_entry]; exact G.entry

/-- `bpf_ringbuf_discard(r, 0)` -/
def discard (r : Nat) : Insn := { mkCall 0x85 with vals := [.insn r, const32 0] }

theorem discards_spec {x : Nat} {b : Nat} : ∀ (L : List Nat) {f : Fn} {A : List Nat}, f.body b = A ++ [x] → x ∉ A → f.parent x = b → x < f.next → (f.insn x).op ≠ .phi →
    ∃ g D, discards x L f = .ok g ∧ Grown f b A D x g ∧ D.map g.insn = L.map discard := by
  intro L
  induction L with
  | nil => intro f A hb _ _ _ _; exact ⟨f, [], rfl, .nil hb, rfl⟩
  | cons r L ih =>
    intro f A hb hx hp hn ho
    obtain ⟨f1, e1, G1, i1, n1, _⟩ := grow_front (i := mkCall 0x85) hb hx hp hn ho
    obtain ⟨f2, e2, G2, i2, k2, n2, p2⟩ := addArg (c := f.next) (v := .insn r) G1 (Nat.le_refl _) (by rw [i1]; simp [mkCall])
    obtain ⟨f3, e3, G3, i3, k3, n3, p3⟩ := addArg (c := f.next) (v := const32 0) G2 (Nat.le_refl _) (by rw [i2, i1]; simp [mkCall])
    have hc : f3.insn f.next = discard r := by rw [i3, i2, i1]; rfl
    obtain ⟨g, D, e4, G4, hD⟩ := ih (f := f3) (A := A ++ [f.next]) (by rw [G3.body]) (by simp [hx]; omega) (by rw [G3.parent x hn, hp])
      (Nat.lt_of_lt_of_le hn G3.next) (by rw [G3.insn x hn]; exact ho)
    refine ⟨g, f.next :: D, ?_, G3.trans G4, ?_⟩
    · simp only [discards, e1, e2, e3, Out.ok_bind]; exact e4
    · rw [List.map_cons, List.map_cons, hD, G4.insn f.next (by rw [n3, n2, n1]; omega), hc]

/-- The instructions of the message. -/
structure Msg (g : Fn) (a s1 s2 e c : Nat) : Prop where
  alloc : g.insn a = mkAllocarray .t64 1
  st1 : g.insn s1 = mkStoreraw .t8 (.insn a) 4 .plain (const32 0)
  st2 : g.insn s2 = mkStoreraw .t32 (.insn a) 0 .plain (const32 0x74697865)
  elem : g.insn e = mkGetelemptr a (const32 0)
  call : g.insn c = { mkCall 6 with vals := [.insn e, const32 5] }

theorem message_spec {f : Fn} {x b : Nat} {A : List Nat} (hb : f.body b = A ++ [x]) (hx : x ∉ A) (hA : ∀ y ∈ A, y < f.next) (hp : f.parent x = b) (hn : x < f.next) (ho : (f.insn x).op ≠ .phi) :
    ∃ g a s1 s2 e c, message x f = .ok g ∧ Grown f b A [a, s1, s2, e, c] x g ∧ Msg g a s1 s2 e c := by
  have hA' : ∀ n, f.next ≤ n → n ∉ A := fun n h1 h2 => by have := hA n h2; omega
  obtain ⟨f1, e1, G1, i1, n1, p1⟩ := grow_front (i := mkAllocarray .t64 1) hb hx hp hn ho
  obtain ⟨f2, e2, G2, i2, n2, p2⟩ := grow_back (i := mkStoreraw .t8 (.insn f.next) 4 .plain (const32 0)) (a := f.next) G1.body (hA' _ (Nat.le_refl _)) p1 (by omega) (by rw [i1]; simp [mkAllocarray])
  obtain ⟨f3, e3, G3, i3, n3, p3⟩ := grow_back (i := mkStoreraw .t32 (.insn f.next) 0 .plain (const32 0x74697865)) (A := A ++ [f.next]) (a := f1.next) (by rw [G2.body]) (by simp [hA' f1.next (by omega)]; omega) p2 (by omega) (by rw [i2]; simp [mkStoreraw])
  obtain ⟨f4, e4, G4, i4, n4, p4⟩ := grow_back (i := mkGetelemptr f.next (const32 0)) (A := A ++ [f.next] ++ [f1.next]) (a := f2.next) (by rw [G3.body]) (by simp [hA' f2.next (by omega)]; omega) p3 (by omega) (by rw [i3]; simp [mkStoreraw])
  obtain ⟨f5, e5, G5, i5, n5, p5⟩ := grow_back (i := mkCall 6) (A := A ++ [f.next] ++ [f1.next] ++ [f2.next]) (a := f3.next) (by rw [G4.body]) (by simp [hA' f3.next (by omega)]; omega) p4 (by omega) (by rw [i4]; simp [mkGetelemptr])
  obtain ⟨f6, e6, G6, i6, k6, n6, p6⟩ := addArg (c := f4.next) (v := .insn f3.next) G5 (Nat.le_refl _) (by rw [i5]; simp [mkCall])
  obtain ⟨f7, e7, G7, i7, k7, n7, p7⟩ := addArg (c := f4.next) (v := const32 5) G6 (Nat.le_refl _) (by rw [i6, i5]; simp [mkCall])
  have G := G1.trans (G2.trans (G3.trans (G4.trans G7)))
  refine ⟨f7, f.next, f1.next, f2.next, f3.next, f4.next, ?_, G, ?_, ?_, ?_, ?_, ?_⟩
  · simp only [message, e1, e2, e3, e4, e5, e6, Out.ok_bind]; exact e7
  · rw [G7.insn _ (by omega), G4.insn _ (by omega), G3.insn _ (by omega), G2.insn _ (by omega), i1]
  · rw [G7.insn _ (by omega), G4.insn _ (by omega), G3.insn _ (by omega), i2]
  · rw [G7.insn _ (by omega), G4.insn _ (by omega), i3]
  · rw [G7.insn _ (by omega), i4]
  · rw [i7, i6, i5]; rfl

/-- What stands in front of the return that was a throw: the discards of `L`, and the message. -/
def Exit (msg : Bool) (L : List Nat) (g : Fn) (N : List Nat) : Prop :=
  ∃ D M, N = D ++ M ∧ D.map g.insn = L.map discard ∧ (if msg then ∃ a s1 s2 e c, M = [a, s1, s2, e, c] ∧ Msg g a s1 s2 e c else M = [])

theorem transOne_spec {msg : Bool} {L : List Nat} {f : Fn} {x b : Nat} {A : List Nat} (hb : f.body b = A ++ [x]) (hx : x ∉ A) (hA : ∀ y ∈ A, y < f.next) (hp : f.parent x = b)
    (hn : x < f.next) (ho : (f.insn x).op ≠ .phi) : ∃ g N, transOne msg L x f = .ok { g with insn := upd g.insn x { g.insn x with op := .ret, vals := [const32 0] } } ∧
      Grown f b A N x g ∧ Exit msg L g N := by
  obtain ⟨f1, D, e1, G1, hD⟩ := discards_spec L hb hx hp hn ho
  cases msg with
  | false => exact ⟨f1, D, by simp [transOne, e1, Out.ok_bind], G1, D, [], by simp, hD, by simp⟩
  | true =>
    obtain ⟨f2, a, s1, s2, e, c, e2, G2, hM⟩ := message_spec (f := f1) (x := x) (b := b) (A := A ++ D) (by rw [G1.body])
      (by
        intro h
        rcases List.mem_append.1 h with h | h
        · exact hx h
        · have := (G1.fresh x h).1; omega)
      (by
        intro y hy
        rcases List.mem_append.1 hy with h | h
        · exact Nat.lt_of_lt_of_le (hA y h) G1.next
        · exact (G1.fresh y h).2)
      (by rw [G1.parent x hn, hp]) (Nat.lt_of_lt_of_le hn G1.next) (by rw [G1.insn x hn]; exact ho)
    refine ⟨f2, D ++ [a, s1, s2, e, c], by simp [transOne, e1, e2, Out.ok_bind], G1.trans G2, D, _, rfl, ?_, by simpa using ⟨a, s1, s2, e, c, ⟨rfl, rfl, rfl, rfl, rfl⟩, hM⟩⟩
    rw [← hD]
    exact List.map_congr_left fun y hy => G2.insn y (G1.fresh y hy).2

/-! ## All throws -/

/-- The result of the translation of the throws `T`. -/
structure Done (msg : Bool) (out : Nat → List Nat) (f : Fn) (T : List Nat) (g : Fn) : Prop where
  insn : ∀ y, y < f.next → y ∉ T → g.insn y = f.insn y
  ret : ∀ x ∈ T, (g.insn x).op = .ret ∧ (g.insn x).vals = [const32 0]
  other : ∀ c, (∀ x ∈ T, f.parent x ≠ c) → g.body c = f.body c
  site : ∀ x ∈ T, ∃ A N, f.body (f.parent x) = A ++ [x] ∧ g.body (f.parent x) = A ++ N ++ [x] ∧ (∀ y ∈ N, f.next ≤ y) ∧ N.Nodup ∧ Exit msg (out (f.parent x)) g N
  next : f.next ≤ g.next
  preds : g.preds = f.preds
  succs : g.succs = f.succs
  allBbs : g.allBbs = f.allBbs
  entry : g.entry = f.entry

/-- The place of a throw. -/
structure ThrowAt (f : Fn) (x : Nat) : Prop where
  body : ∃ A, f.body (f.parent x) = A ++ [x] ∧ x ∉ A ∧ ∀ y ∈ A, y < f.next
  lt : x < f.next
  op : (f.insn x).op ≠ .phi

theorem exit_congr {msg : Bool} {L : List Nat} {g h : Fn} {N : List Nat} (hi : ∀ y ∈ N, h.insn y = g.insn y) (E : Exit msg L g N) : Exit msg L h N := by
  obtain ⟨D, M, rfl, h1, h2⟩ := E
  refine ⟨D, M, rfl, ?_, ?_⟩
  · rw [← h1]; exact List.map_congr_left fun y hy => hi y (List.mem_append_left _ hy)
  · cases msg with
    | false => simpa using h2
    | true =>
      simp only [if_true] at h2 ⊢
      obtain ⟨a, s1, s2, e, c, rfl, m1, m2, m3, m4, m5⟩ := h2
      exact ⟨a, s1, s2, e, c, rfl, by rw [hi _ (by simp)]; exact m1, by rw [hi _ (by simp)]; exact m2, by rw [hi _ (by simp)]; exact m3, by rw [hi _ (by simp)]; exact m4,
        by rw [hi _ (by simp)]; exact m5⟩

theorem transAll_spec {msg : Bool} {out : Nat → List Nat} : ∀ (T : List Nat) {f : Fn}, T.Nodup → (∀ x ∈ T, ThrowAt f x) → (∀ x ∈ T, ∀ y ∈ T, f.parent x = f.parent y → x = y) →
    ∃ g, transAll msg out T f = .ok g ∧ Done msg out f T g := by
  intro T
  induction T with
  | nil =>
    intro f _ _ _
    exact ⟨f, rfl, fun _ _ _ => rfl, by simp, fun _ _ => rfl, by simp, Nat.le_refl _, rfl, rfl, rfl, rfl⟩
  | cons x T ih =>
    intro f hnd hT hu
    obtain ⟨A, hA, hxA, hlt⟩ := (hT x (List.mem_cons_self ..)).body
    have hx := (hT x (List.mem_cons_self ..)).lt
    obtain ⟨f1, N, e1, G, E⟩ := transOne_spec (msg := msg) (L := out (f.parent x)) hA hxA hlt rfl hx (hT x (List.mem_cons_self ..)).op
    have hxT : x ∉ T := (List.nodup_cons.1 hnd).1
    have hxN : x ∉ N := fun h => by have := (G.fresh x h).1; omega
    generalize hf2 : ({ f1 with insn := upd f1.insn x { f1.insn x with op := .ret, vals := [const32 0] } } : Fn) = f2 at e1
    have hi2 : ∀ y, y ≠ x → f2.insn y = f1.insn y := fun y hy => by rw [← hf2]; exact upd_ne _ _ hy
    have hxx : (f2.insn x).op = .ret ∧ (f2.insn x).vals = [const32 0] := by rw [← hf2]; simp [upd_same]
    have hb2 : f2.body = f1.body := by rw [← hf2]
    have hn2 : f2.next = f1.next := by rw [← hf2]
    have hp2 : f2.parent = f1.parent := by rw [← hf2]
    have hne : ∀ y ∈ T, f.parent y ≠ f.parent x := fun y hy e => by
      have := hu y (List.mem_cons_of_mem _ hy) x (List.mem_cons_self ..) e
      exact hxT (this ▸ hy)
    have hT2 : ∀ y ∈ T, y < f.next := fun y hy => (hT y (List.mem_cons_of_mem _ hy)).lt
    have hpar : ∀ y ∈ T, f2.parent y = f.parent y := fun y hy => by rw [hp2, G.parent y (hT2 y hy)]
    have hbod : ∀ y ∈ T, f2.body (f.parent y) = f.body (f.parent y) := fun y hy => by rw [hb2, G.other _ (hne y hy)]
    obtain ⟨g, e2, D⟩ := ih (f := f2) (List.nodup_cons.1 hnd).2
      (fun y hy => by
        have hy' := hT y (List.mem_cons_of_mem _ hy)
        obtain ⟨B, hB, h1, h2⟩ := hy'.body
        refine ⟨⟨B, by rw [hpar y hy, hbod y hy]; exact hB, h1, fun z hz => by rw [hn2]; exact Nat.lt_of_lt_of_le (h2 z hz) G.next⟩, by rw [hn2]; exact Nat.lt_of_lt_of_le hy'.lt G.next, ?_⟩
        rw [hi2 y (fun e => hxT (e ▸ hy)), G.insn y hy'.lt]; exact hy'.op)
      (fun y hy z hz h => hu y (List.mem_cons_of_mem _ hy) z (List.mem_cons_of_mem _ hz) (by rw [← hpar y hy, ← hpar z hz]; exact h))
    refine ⟨g, by simp only [transAll, e1, Out.ok_bind]; exact e2, ?_⟩
    have hgx : g.insn x = f2.insn x := D.insn x (by rw [hn2]; exact Nat.lt_of_lt_of_le hx G.next) hxT
    refine ⟨fun y hy hyT => ?_, fun y hy => ?_, fun c hc => ?_, fun y hy => ?_, ?_, ?_, ?_, ?_, ?_⟩
    · have h1 : y ≠ x := fun e => hyT (by simp [e])
      rw [D.insn y (by rw [hn2]; exact Nat.lt_of_lt_of_le hy G.next) (fun h => hyT (List.mem_cons_of_mem _ h)), hi2 y h1, G.insn y hy]
    · rcases List.mem_cons.1 hy with rfl | hm
      · rw [hgx]; exact hxx
      · exact D.ret y hm
    · rw [D.other c fun y hy => by rw [hpar y hy]; exact hc y (List.mem_cons_of_mem _ hy), hb2, G.other c (fun e => hc x (List.mem_cons_self ..) e.symm)]
    · rcases List.mem_cons.1 hy with rfl | hm
      · refine ⟨A, N, hA, ?_, fun z hz => (G.fresh z hz).1, G.nodup, ?_⟩
        · rw [D.other _ fun z hz => by rw [hpar z hz]; exact hne z hz, hb2, G.body]
        · refine exit_congr (fun z hz => ?_) E
          have hzf := G.fresh z hz
          rw [D.insn z (by rw [hn2]; exact hzf.2) (fun h => by have := hT2 z h; omega), hi2 z (fun e => hxN (e ▸ hz))]
      · obtain ⟨B, M, h1, h2, h3, h4, h5⟩ := D.site y hm
        rw [hpar y hm] at h1 h2 h5
        rw [hbod y hm] at h1
        exact ⟨B, M, h1, h2, fun z hz => Nat.le_trans G.next (by rw [← hn2]; exact h3 z hz), h4, h5⟩
    · have := D.next; have := G.next; omega
    · rw [D.preds, ← hf2]; exact G.preds
    · rw [D.succs, ← hf2]; exact G.succs
    · rw [D.allBbs, ← hf2]; exact G.allBbs
    · rw [D.entry, ← hf2]; exact G.entry

end Verif.Throw
