import Verif.Live.Model
import Verif.Spec.Live
import Verif.RA.Lemmas
/-!
# Lemmas about the liveness analysis
-/
namespace Verif.Live
open Verif Verif.IR

/-- The sets only grow. -/
structure Le (a b : L) : Prop where
  inn : ∀ x, a.inn x ⊆ b.inn x
  out : ∀ x, a.out x ⊆ b.out x
  reqs : a.reqs ⊆ b.reqs

theorem Le.rfl' (a : L) : Le a a := ⟨fun _ _ h => h, fun _ _ h => h, fun _ h => h⟩
theorem Le.trans {a b c : L} (h : Le a b) (k : Le b c) : Le a c :=
  ⟨fun x _ hy => k.inn x (h.inn x hy), fun x _ hy => k.out x (h.out x hy), fun _ hy => k.reqs (h.reqs hy)⟩

theorem mem_insAt {g : Nat → List Nat} {s v x y : Nat} : y ∈ insAt g s v x ↔ y ∈ g x ∨ (x = s ∧ y = v) := by
  unfold insAt
  split
  · rename_i h; rw [RA.mem_ins]; simp [h]
  · rename_i h; simp [h]

/-- A value in the live-out set of an instruction that defines another value conflicts with it. -/
def Recorded (dst : Nat → Option Nat) (l : L) : Prop :=
  ∀ s d v, v ∈ l.out s → dst s = some d → d ≠ v → (v, d) ∈ l.reqs

/-- The conflicts are between different values. -/
def Proper (l : L) : Prop := ∀ q ∈ l.reqs, q.1 ≠ q.2

/-- The part of a block before some point is done: `rev` are its instructions, last first. -/
def DoneRev (f : Fn) (dst : Nat → Option Nat) (v : Nat) (l : L) (n : Nat) : List Nat → Prop
  | [] => ∀ p ∈ f.preds n, p ∈ l.M
  | s :: pre => v ∈ l.out s ∧ (dst s ≠ some v → v ∈ l.inn s ∧ DoneRev f dst v l n pre)

theorem DoneRev.mono {f dst v n} {a b : L} (h : Le a b) (hM : a.M ⊆ b.M) :
    ∀ {rev}, DoneRev f dst v a n rev → DoneRev f dst v b n rev
  | [], hd => fun p hp => hM (hd p hp)
  | s :: pre, hd => ⟨h.out s hd.1, fun hs => ⟨h.inn s (hd.2 hs).1, DoneRev.mono h hM (hd.2 hs).2⟩⟩

theorem walk_spec (f : Fn) (dst : Nat → Option Nat) (v n : Nat) : ∀ (rev : List Nat) (l : L),
    Le l (walk dst v rev l).1 ∧ (walk dst v rev l).1.M = l.M ∧
    (Recorded dst l → Recorded dst (walk dst v rev l).1) ∧
    (Proper l → Proper (walk dst v rev l).1) ∧
    (∀ l', Le (walk dst v rev l).1 l' → ((walk dst v rev l).2 = true → ∀ p ∈ f.preds n, p ∈ l'.M) →
      DoneRev f dst v l' n rev)
  | [], l => ⟨.rfl' l, rfl, fun h => h, fun h => h, fun l' _ h => h rfl⟩
  | s :: pre, l => by
    unfold walk
    cases hd : dst s with
    | none =>
      dsimp only
      obtain ⟨h1, h2, h3, hp, h4⟩ := walk_spec f dst v n pre
        { l with out := insAt l.out s v, inn := insAt l.inn s v }
      have le0 : Le l { l with out := insAt l.out s v, inn := insAt l.inn s v } :=
        ⟨fun _ _ hy => mem_insAt.2 (Or.inl hy), fun _ _ hy => mem_insAt.2 (Or.inl hy), fun _ h => h⟩
      refine ⟨le0.trans h1, h2, ?_, hp, ?_⟩
      · intro hr
        apply h3
        intro x d w hw hx hne
        rcases mem_insAt.1 hw with hw | ⟨rfl, _⟩
        · exact hr x d w hw hx hne
        · rw [hd] at hx; cases hx
      · intro l' hl hM
        refine ⟨hl.out s (h1.out s (mem_insAt.2 (Or.inr ⟨rfl, rfl⟩))), fun _ =>
          ⟨hl.inn s (h1.inn s (mem_insAt.2 (Or.inr ⟨rfl, rfl⟩))), h4 l' hl hM⟩⟩
    | some d =>
      dsimp only
      split
      · rename_i he
        refine ⟨⟨fun _ _ h => h, ?_, fun _ h => h⟩, rfl, ?_, fun h => h, ?_⟩
        · intro x y hy; exact mem_insAt.2 (Or.inl hy)
        · intro hr x d' w hw hx hne
          rcases mem_insAt.1 hw with hw | ⟨rfl, rfl⟩
          · exact hr x d' w hw hx hne
          · rw [hd] at hx; cases hx; exact absurd he hne
        · intro l' hl _
          refine ⟨hl.out s (mem_insAt.2 (Or.inr ⟨rfl, rfl⟩)), fun h => ?_⟩
          rw [hd, he] at h
          exact absurd rfl h
      · rename_i he
        obtain ⟨h1, h2, h3, hp, h4⟩ := walk_spec f dst v n pre
          { l with out := insAt l.out s v, reqs := l.reqs ++ [(v, d)], inn := insAt l.inn s v }
        have le0 : Le l { l with out := insAt l.out s v, reqs := l.reqs ++ [(v, d)], inn := insAt l.inn s v } :=
          ⟨fun _ _ hy => mem_insAt.2 (Or.inl hy), fun _ _ hy => mem_insAt.2 (Or.inl hy),
            fun _ hy => List.mem_append_left _ hy⟩
        refine ⟨le0.trans h1, h2, ?_, ?_, ?_⟩
        · intro hr
          apply h3
          intro x d' w hw hx hne
          rcases mem_insAt.1 hw with hw | ⟨rfl, rfl⟩
          · exact List.mem_append_left _ (hr x d' w hw hx hne)
          · rw [hd] at hx; cases hx; exact List.mem_append_right _ (by simp)
        · intro hq
          apply hp
          intro q hq'
          rcases List.mem_append.1 hq' with h | h
          · exact hq q h
          · simp only [List.mem_singleton] at h
            subst h
            exact fun e => he e.symm
        · intro l' hl hM
          refine ⟨hl.out s (h1.out s (mem_insAt.2 (Or.inr ⟨rfl, rfl⟩))), fun _ =>
            ⟨hl.inn s (h1.inn s (mem_insAt.2 (Or.inr ⟨rfl, rfl⟩))), h4 l' hl hM⟩⟩

/-- What a part of the analysis of one value does: the sets grow, conflicts are recorded, blocks visited on the way are
done. -/
structure Ext (f : Fn) (dst : Nat → Option Nat) (v : Nat) (l l' : L) : Prop where
  le : Le l l'
  M : l.M ⊆ l'.M
  rcd : Recorded dst l → Recorded dst l'
  proper : Proper l → Proper l'
  done : ∀ m ∈ l'.M, m ∈ l.M ∨ DoneRev f dst v l' m (f.body m).reverse

theorem Ext.rfl' (f dst v) (l : L) : Ext f dst v l l := ⟨.rfl' l, fun _ h => h, fun h => h, fun h => h, fun _ h => Or.inl h⟩

theorem Ext.trans {f dst v} {a b c : L} (h : Ext f dst v a b) (k : Ext f dst v b c) : Ext f dst v a c := by
  refine ⟨h.le.trans k.le, fun _ hx => k.M (h.M hx), fun x => k.rcd (h.rcd x), fun x => k.proper (h.proper x), ?_⟩
  intro m hm
  rcases k.done m hm with h1 | h1
  · rcases h.done m h1 with h2 | h2
    · exact Or.inl h2
    · exact Or.inr (h2.mono k.le k.M)
  · exact Or.inr h1

theorem each_spec {α : Type} {g : α → L → Out L} {R : L → L → Prop} {Q : α → L → Prop}
    (hr : ∀ l, R l l) (ht : ∀ a b c, R a b → R b c → R a c) (hq : ∀ a l l', Q a l → R l l' → Q a l')
    (hg : ∀ a l l', g a l = .ok l' → R l l' ∧ Q a l') : ∀ {as : List α} {l l' : L}, each g as l = .ok l' →
    R l l' ∧ ∀ a ∈ as, Q a l'
  | [], l, l', h => by cases h; exact ⟨hr l, by simp⟩
  | a :: as, l, l', h => by
    obtain ⟨l1, h1, h2⟩ := Out.bind_eq_ok.1 h
    obtain ⟨k1, k2⟩ := hg a l l1 h1
    obtain ⟨k3, k4⟩ := each_spec hr ht hq hg h2
    refine ⟨ht _ _ _ k1 k3, ?_⟩
    intro x hx
    rcases List.mem_cons.1 hx with rfl | hx
    · exact hq _ _ _ k2 k3
    · exact k4 x hx

theorem outBlock_spec {f : Fn} {dst : Nat → Option Nat} {v : Nat} : ∀ (k n : Nat) (l l' : L),
    outBlock f dst v k n l = .ok l' → Ext f dst v l l' ∧ n ∈ l'.M
  | 0, _, _, _, h => by cases h
  | k + 1, n, l, l', h => by
    unfold outBlock at h
    split at h
    · rename_i hm
      cases h
      exact ⟨.rfl' _ _ _ _, hm⟩
    · dsimp only at h
      obtain ⟨w1, w2, w3, wp, w4⟩ := walk_spec f dst v n (f.body n).reverse { l with M := n :: l.M }
      have le0 : Le l { l with M := n :: l.M } := ⟨fun _ _ h => h, fun _ _ h => h, fun _ h => h⟩
      split at h
      · obtain ⟨e1, e2⟩ := each_spec (R := Ext f dst v) (Q := fun p l => p ∈ l.M) (Ext.rfl' f dst v)
          (fun _ _ _ => Ext.trans) (fun _ _ _ h k => k.M h) (fun p l l' h => outBlock_spec k p l l' h) h
        refine ⟨⟨(le0.trans w1).trans e1.le, ?_, fun h => e1.rcd (w3 h), fun h => e1.proper (wp h), ?_⟩, ?_⟩
        · intro x hx
          apply e1.M
          rw [w2]
          exact List.mem_cons_of_mem _ hx
        · intro m hm
          rcases e1.done m hm with hm' | hm'
          · rw [w2] at hm'
            rcases List.mem_cons.1 hm' with rfl | hm'
            · exact Or.inr (w4 l' e1.le (fun _ => e2))
            · exact Or.inl hm'
          · exact Or.inr hm'
        · apply e1.M; rw [w2]; simp
      · rename_i hf
        cases h
        refine ⟨⟨le0.trans w1, ?_, w3, wp, ?_⟩, ?_⟩
        · intro x hx; rw [w2]; exact List.mem_cons_of_mem _ hx
        · intro m hm
          rw [w2] at hm
          rcases List.mem_cons.1 hm with rfl | hm
          · exact Or.inr (w4 _ (.rfl' _) (fun h => absurd h hf))
          · exact Or.inl hm
        · rw [w2]; simp

theorem inStmt_spec {f : Fn} {dst : Nat → Option Nat} {v s : Nat} {l l' : L} (h : inStmt f dst v s l = .ok l') :
    Ext f dst v l l' ∧ v ∈ l'.inn s ∧ DoneRev f dst v l' (f.parent s) (before f s) := by
  unfold inStmt at h
  dsimp only at h
  obtain ⟨w1, w2, w3, wp, w4⟩ := walk_spec f dst v (f.parent s) (before f s) { l with inn := insAt l.inn s v }
  have le0 : Le l { l with inn := insAt l.inn s v } :=
    ⟨fun _ _ h => mem_insAt.2 (Or.inl h), fun _ _ h => h, fun _ h => h⟩
  have hin : v ∈ (walk dst v (before f s) { l with inn := insAt l.inn s v }).1.inn s :=
    w1.inn s (mem_insAt.2 (Or.inr ⟨rfl, rfl⟩))
  split at h
  · obtain ⟨e1, e2⟩ := each_spec (R := Ext f dst v) (Q := fun p l => p ∈ l.M) (Ext.rfl' f dst v)
      (fun _ _ _ => Ext.trans) (fun _ _ _ h k => k.M h) (fun p l l' h => outBlock_spec (depth f) p l l' h) h
    refine ⟨⟨(le0.trans w1).trans e1.le, ?_, fun h => e1.rcd (w3 h), fun h => e1.proper (wp h), ?_⟩, e1.le.inn s hin,
      w4 l' e1.le (fun _ => e2)⟩
    · intro x hx; apply e1.M; rw [w2]; exact hx
    · intro m hm
      rcases e1.done m hm with hm' | hm'
      · rw [w2] at hm'; exact Or.inl hm'
      · exact Or.inr hm'
  · rename_i hf
    cases h
    refine ⟨⟨le0.trans w1, ?_, w3, wp, ?_⟩, hin, w4 _ (.rfl' _) (fun h => absurd h hf)⟩
    · intro x hx; rw [w2]; exact hx
    · intro m hm; rw [w2] at hm; exact Or.inl hm

/-- A user of the value is taken into account. -/
def UserDone (f : Fn) (dst : Nat → Option Nat) (v s : Nat) (l : L) : Prop :=
  if (f.insn s).op = .phi then ∀ b, (b, Val.insn v) ∈ (f.insn s).phi → b ∈ l.M
  else v ∈ l.inn s ∧ DoneRev f dst v l (f.parent s) (before f s)

theorem user_spec {f : Fn} {dst : Nat → Option Nat} {v s : Nat} {l l' : L} (h : user f dst v s l = .ok l') :
    Ext f dst v l l' ∧ UserDone f dst v s l' := by
  unfold user at h
  unfold UserDone
  split at h
  · rename_i hp
    split at h
    · cases h
    · obtain ⟨e1, e2⟩ := each_spec (R := Ext f dst v) (Q := fun p l => p ∈ l.M) (Ext.rfl' f dst v)
        (fun _ _ _ => Ext.trans) (fun _ _ _ h k => k.M h) (fun p l l' h => outBlock_spec (depth f) p l l' h) h
      refine ⟨e1, ?_⟩
      rw [if_pos hp]
      intro b hb
      apply e2
      unfold phiBlocks
      exact List.mem_map.2 ⟨(b, .insn v), List.mem_filter.2 ⟨hb, by simp⟩, rfl⟩
  · rename_i hp
    obtain ⟨h1, h2⟩ := inStmt_spec h
    exact ⟨h1, by rw [if_neg hp]; exact h2⟩

theorem users_spec {f : Fn} {dst : Nat → Option Nat} {v : Nat} {us : List Nat} {l l' : L}
    (h : each (user f dst v) us l = .ok l') : Ext f dst v l l' ∧ ∀ s ∈ us, UserDone f dst v s l' := by
  refine each_spec (R := Ext f dst v) (Q := fun s l => UserDone f dst v s l) (Ext.rfl' f dst v)
    (fun _ _ _ => Ext.trans) ?_ (fun _ _ _ h => user_spec h) h
  intro s a b hs hab
  unfold UserDone at hs ⊢
  split
  · rename_i hp
    rw [if_pos hp] at hs
    exact fun b hb => hab.M (hs b hb)
  · rename_i hp
    rw [if_neg hp] at hs
    exact ⟨hab.le.inn s hs.1, hs.2.mono hab.le hab.M⟩

/-- What the function must satisfy: an instruction is in one place, edges are in the predecessor lists, users are
listed. -/
structure Ok (f : Fn) : Prop where
  parent : ∀ b ∈ f.allBbs, ∀ s ∈ f.body b, f.parent s = b
  nodup : ∀ b ∈ f.allBbs, (f.body b).Nodup
  preds : ∀ b ∈ f.allBbs, ∀ c ∈ f.succs b, c ∈ f.allBbs ∧ b ∈ f.preds c
  users : ∀ b ∈ f.allBbs, ∀ s ∈ f.body b, ∀ v, 0 < refs (f.insn s) v → s ∈ f.users v

theorem before_eq {f : Fn} (h : Ok f) {b : Nat} (hb : b ∈ f.allBbs) {pre rest : List Nat} {s : Nat}
    (e : f.body b = pre ++ s :: rest) : before f s = pre.reverse := by
  unfold before
  rw [h.parent b hb s (by rw [e]; simp), e]
  congr 1
  have hn := h.nodup b hb
  rw [e, List.nodup_append] at hn
  rw [List.takeWhile_append_of_pos]
  · simp
  · intro a ha
    have := hn.2.2 a ha s (by simp)
    simpa using this

theorem refs_phi {i : Insn} {b v : Nat} (hp : i.op = .phi) (h : (b, Val.insn v) ∈ i.phi) : 0 < refs i v := by
  unfold refs
  rw [if_pos hp]
  have : 0 < i.phi.countP (fun o => o.2 == .insn v) := List.countP_pos_iff.2 ⟨_, h, by simp⟩
  omega

/-- Once all users of a value are taken into account, every point where it is needed has it. -/
theorem needed_done {f : Fn} {dst : Nat → Option Nat} {v : Nat} {l : L} (hok : Ok f)
    (hu : ∀ s ∈ f.users v, UserDone f dst v s l)
    (hM : ∀ m ∈ l.M, DoneRev f dst v l m (f.body m).reverse) {b : Nat} {rest : List Nat}
    (hn : Needed f dst v b rest) : b ∈ f.allBbs → ∀ pre, f.body b = pre ++ rest →
    DoneRev f dst v l b pre.reverse ∧ ∀ s r, rest = s :: r → v ∈ l.inn s := by
  induction hn with
  | @use b s rest hp hr =>
    intro hb pre e
    have hm : s ∈ f.body b := by rw [e]; simp
    have h1 := hu s (hok.users b hb s hm v hr)
    unfold UserDone at h1
    rw [if_neg hp, before_eq hok hb e, hok.parent b hb s hm] at h1
    refine ⟨h1.2, ?_⟩
    intro s' r' e'
    cases e'
    exact h1.1
  | @skip b s rest hd _ ih =>
    intro hb pre e
    have := (ih hb (pre ++ [s]) (by simp [e])).1
    rw [List.reverse_append, List.reverse_singleton, List.singleton_append] at this
    have h2 := this.2 hd
    refine ⟨h2.2, ?_⟩
    intro s' r' e'
    cases e'
    exact h2.1
  | @phi b c p hc hp1 hp2 hp3 =>
    intro hb pre e
    have hc' := (hok.preds b hb c hc).1
    have h1 := hu p (hok.users c hc' p hp1 v (refs_phi hp2 hp3))
    unfold UserDone at h1
    rw [if_pos hp2] at h1
    have := hM b (h1 b hp3)
    rw [e, List.append_nil] at this
    exact ⟨this, fun s r e' => by cases e'⟩
  | @jump b c hc _ ih =>
    intro hb pre e
    have hc' := hok.preds b hb c hc
    have h1 := (ih hc'.1 [] rfl).1
    have := hM b (h1 b hc'.2)
    rw [e, List.append_nil] at this
    exact ⟨this, fun s r e' => by cases e'⟩

/-- What the analysis of one value does for the points where it is needed. -/
def ValueDone (f : Fn) (dst : Nat → Option Nat) (fin : Nat → Bool) (v : Nat) (l : L) : Prop :=
  dst v ≠ none → fin v = false → ∀ b ∈ f.allBbs, ∀ pre s rest, f.body b = pre ++ s :: rest →
    (Needed f dst v b (s :: rest) → v ∈ l.inn s) ∧ (Needed f dst v b rest → v ∈ l.out s)

/-- The sets grow and conflicts are recorded. -/
structure Grow (dst : Nat → Option Nat) (l l' : L) : Prop where
  le : Le l l'
  rcd : Recorded dst l → Recorded dst l'
  proper : Proper l → Proper l'

theorem value_spec {f : Fn} (hok : Ok f) {dst : Nat → Option Nat} {fin : Nat → Bool} {v : Nat} {l l' : L}
    (h : value f dst fin v l = .ok l') : Grow dst l l' ∧ ValueDone f dst fin v l' := by
  unfold value at h
  split at h
  · rename_i hd
    cases h
    exact ⟨⟨.rfl' l, fun h => h, fun h => h⟩, fun h => absurd hd h⟩
  · split at h
    · rename_i hf
      cases h
      refine ⟨⟨.rfl' l, fun h => h, fun h => h⟩, fun _ h => ?_⟩
      rw [hf] at h; cases h
    · split at h
      · cases h
      · obtain ⟨e, hu⟩ := users_spec h
        have le0 : Le l { l with M := [] } := ⟨fun _ _ h => h, fun _ _ h => h, fun _ h => h⟩
        refine ⟨⟨le0.trans e.le, e.rcd, e.proper⟩, ?_⟩
        intro _ _ b hb pre s rest eb
        have hM : ∀ m ∈ l'.M, DoneRev f dst v l' m (f.body m).reverse := by
          intro m hm
          rcases e.done m hm with h | h
          · cases h
          · exact h
        constructor
        · intro hn
          exact (needed_done hok hu hM hn hb pre eb).2 s rest rfl
        · intro hn
          have := (needed_done hok hu hM hn hb (pre ++ [s]) (by simp [eb])).1
          rw [List.reverse_append, List.reverse_singleton, List.singleton_append] at this
          exact this.1

theorem liveness_spec {f : Fn} (hok : Ok f) {R : List Nat} {dst : Nat → Option Nat} {fin : Nat → Bool} {l : L}
    (h : liveness f R dst fin = .ok l) :
    Recorded dst l ∧ Proper l ∧ ∀ v ∈ insns f R, ValueDone f dst fin v l := by
  obtain ⟨h1, h2⟩ := each_spec (R := Grow dst) (Q := fun v l => ValueDone f dst fin v l)
    (fun l => ⟨.rfl' l, fun h => h, fun h => h⟩)
    (fun a b c h k => ⟨h.le.trans k.le, fun x => k.rcd (h.rcd x), fun x => k.proper (h.proper x)⟩)
    (by
      intro v a b hv hab h3 h4 b' hb pre s rest e
      obtain ⟨k1, k2⟩ := hv h3 h4 b' hb pre s rest e
      exact ⟨fun h => hab.le.inn s (k1 h), fun h => hab.le.out s (k2 h)⟩)
    (fun v l l' h => value_spec hok h) h
  exact ⟨h1.rcd (by intro s d v hv; simp [L.empty] at hv), h1.proper (by intro q hq; simp [L.empty] at hq), h2⟩

/-! ## The analysis ends -/

/-- Blocks not visited yet. -/
def fresh (f : Fn) (M : List Nat) : List Nat := f.allBbs.filter (· ∉ M)

theorem fresh_mono {f : Fn} {M M' : List Nat} (h : M ⊆ M') : (fresh f M').length ≤ (fresh f M).length := by
  unfold fresh
  rw [← List.countP_eq_length_filter, ← List.countP_eq_length_filter]
  apply List.countP_mono_left
  intro x _ hx
  simp only [decide_eq_true_eq] at hx ⊢
  exact fun hm => hx (h hm)

theorem fresh_lt {f : Fn} {M : List Nat} {n : Nat} (hn : n ∈ f.allBbs) (hm : n ∉ M) :
    (fresh f (n :: M)).length < (fresh f M).length := by
  have e : fresh f (n :: M) = (fresh f M).filter (· ≠ n) := by
    unfold fresh
    rw [List.filter_filter]
    apply List.filter_congr
    intro x _
    by_cases h1 : x = n <;> by_cases h2 : x ∈ M <;> simp [h1, h2]
  rw [e, List.length_filter_lt_length_iff_exists]
  refine ⟨n, ?_, by simp⟩
  unfold fresh
  rw [List.mem_filter]
  exact ⟨hn, by simpa using hm⟩

theorem each_ends {α : Type} {g : α → L → Out L} {I : L → Prop} : ∀ {as : List α} {l : L}, I l →
    (∀ a ∈ as, ∀ l, I l → ∃ l', g a l = .ok l' ∧ I l') → ∃ l', each g as l = .ok l' ∧ I l'
  | [], l, hl, _ => ⟨l, rfl, hl⟩
  | a :: as, l, hl, h => by
    obtain ⟨l1, h1, h2⟩ := h a (by simp) l hl
    obtain ⟨l2, h3, h4⟩ := each_ends (as := as) h2 (fun x hx => h x (by simp [hx]))
    exact ⟨l2, by simp only [each, h1, Out.ok_bind]; exact h3, h4⟩

theorem outBlock_ends {f : Fn} {dst : Nat → Option Nat} {v : Nat}
    (hp : ∀ b ∈ f.allBbs, ∀ p ∈ f.preds b, p ∈ f.allBbs) : ∀ (k n : Nat) (l : L), n ∈ f.allBbs →
    (fresh f l.M).length < k → ∃ l', outBlock f dst v k n l = .ok l' ∧ l.M ⊆ l'.M
  | 0, _, _, _, h => absurd h (Nat.not_lt_zero _)
  | k + 1, n, l, hn, h => by
    unfold outBlock
    split
    · exact ⟨l, rfl, fun _ h => h⟩
    · rename_i hm
      dsimp only
      have w2 := (walk_spec f dst v n (f.body n).reverse { l with M := n :: l.M }).2.1
      have hlt := fresh_lt hn hm
      split
      · obtain ⟨l', h1, h2⟩ := each_ends (I := fun l' => n :: l.M ⊆ l'.M) (as := f.preds n)
          (g := outBlock f dst v k) (l := (walk dst v (f.body n).reverse { l with M := n :: l.M }).1)
          (by rw [w2]; exact fun _ h => h)
          (by
            intro p hpn l2 hl2
            have := fresh_mono (f := f) hl2
            obtain ⟨l3, h3, h4⟩ := outBlock_ends hp k p l2 (hp n hn p hpn) (by omega)
            exact ⟨l3, h3, fun _ h => h4 (hl2 h)⟩)
        exact ⟨l', h1, fun x hx => h2 (List.mem_cons_of_mem _ hx)⟩
      · exact ⟨_, rfl, by rw [w2]; exact fun x hx => List.mem_cons_of_mem _ hx⟩

theorem outBlock_depth {f : Fn} {dst : Nat → Option Nat} {v : Nat}
    (hp : ∀ b ∈ f.allBbs, ∀ p ∈ f.preds b, p ∈ f.allBbs) {n : Nat} (hn : n ∈ f.allBbs) (l : L) :
    ∃ l', outBlock f dst v (depth f) n l = .ok l' := by
  have : (fresh f l.M).length < depth f := by
    have := List.length_filter_le (fun x => decide (x ∉ l.M)) f.allBbs
    unfold depth fresh
    omega
  obtain ⟨l', h, _⟩ := outBlock_ends hp (depth f) n l hn this
  exact ⟨l', h⟩

/-- What the function must satisfy for the analysis not to fail: users are in blocks, a phi that is a user has an
operand, phi labels are blocks, predecessors are blocks. -/
structure Closed (f : Fn) (R : List Nat) : Prop where
  preds : ∀ b ∈ f.allBbs, ∀ p ∈ f.preds b, p ∈ f.allBbs
  users : ∀ v ∈ insns f R, ∀ s ∈ f.users v, f.parent s ∈ f.allBbs
  phis : ∀ v ∈ insns f R, ∀ s ∈ f.users v, (f.insn s).op = .phi → phiBlocks (f.insn s) v ≠ [] ∧
    ∀ b ∈ phiBlocks (f.insn s) v, b ∈ f.allBbs

theorem value_ends {f : Fn} {R : List Nat} (hc : Closed f R) {dst : Nat → Option Nat} {fin : Nat → Bool} {v : Nat}
    (hv : v ∈ insns f R) (hd : ∀ d, dst v = some d → d = v) (l : L) : ∃ l', value f dst fin v l = .ok l' := by
  unfold value
  split
  · exact ⟨l, rfl⟩
  · rename_i d h
    split
    · exact ⟨l, rfl⟩
    · rw [if_neg (by simpa using hd d h)]
      have := each_ends (I := fun _ => True) (as := f.users v) (g := user f dst v) (l := { l with M := [] }) trivial
        (by
          intro s hs l _
          have ob : ∀ as : List Nat, (∀ b ∈ as, b ∈ f.allBbs) → ∀ l, ∃ l', each (outBlock f dst v (depth f)) as l = .ok l' := by
            intro as has l
            obtain ⟨l', h, _⟩ := each_ends (I := fun _ => True) (as := as) (g := outBlock f dst v (depth f)) (l := l) trivial
              (fun b hb l _ => by
                obtain ⟨l', h⟩ := outBlock_depth (dst := dst) (v := v) hc.preds (has b hb) l
                exact ⟨l', h, trivial⟩)
            exact ⟨l', h⟩
          unfold user
          split
          · rename_i hp
            obtain ⟨h1, h2⟩ := hc.phis v hv s hs hp
            rw [if_neg h1]
            obtain ⟨l', h3⟩ := ob _ h2 l
            exact ⟨l', h3, trivial⟩
          · unfold inStmt
            dsimp only
            split
            · obtain ⟨l', h3⟩ := ob _ (hc.preds _ (hc.users v hv s hs)) _
              exact ⟨l', h3, trivial⟩
            · exact ⟨_, rfl, trivial⟩)
      obtain ⟨l', h, _⟩ := this
      exact ⟨l', h⟩

end Verif.Live
