import Verif.Cg.SpillTools
import Verif.Cg.SpillSim
/-!
# The loop over the users of a spilled instruction
-/
namespace Verif.Cg
open Verif Verif.IR Verif.Edit Verif.Loc
open Verif.Norm (VrPos)
open Verif.RemPhi (All2)

/-- What spilling relies on. -/
structure Base (f : Fn) (R : List Nat) : Prop where
  tidy : Tidy f
  flow : Flow f R
  sub : ∀ b ∈ R, b ∈ f.allBbs
  entry0 : phisOf f f.entry = []
  cover : CoverP f (fun _ _ => False)
  users : UsersIn f
  front : ∀ b ∈ f.allBbs, ∀ x ∈ codeOf f b, (f.insn x).op ≠ .phi
  access : ∀ x, InBody f x → (f.insn x).op = .load ∨ (f.insn x).op = .store → ∃ a r, (f.insn x).vals = .insn a :: r ∧ (f.insn a).op = .alloc
  raws : ∀ b ∈ R, ∀ x ∈ codeOf f b, (f.insn x).op = .call ∨ (f.insn x).op = .loadraw → (f.insn x).vals = []
  labels : ∀ x, InBody f x → ∀ o ∈ (f.insn x).phi, o.1 ∈ f.allBbs
  phiVals : ∀ x, InBody f x → (f.insn x).op = .phi → (f.insn x).vals = []

/-- An operand of a phi before and after. -/
def PhiRel (f : Fn) (v : Nat) (N T : Nat → List Nat) (o o' : Nat × Val) : Prop :=
  o'.1 = o.1 ∧ (o'.2 = o.2 ∨ (o.2 = .insn v ∧ ∃ n, o'.2 = .insn n ∧ f.next + 2 ≤ n ∧ AtEnd f N T o.1 n))

/-- The load of the slot `a`. -/
def theLoad (a : Nat) : Insn := { mkLoad (.insn a) with vrType := .t64 }

structure SpInv (f : Fn) (pos0 : Nat → VrPos) (p : VrPos) (v : Nat) (X : Nat → Nat → Prop) (s : Cg) (H N M T : Nat → List Nat) : Prop where
  grown : Grown f s.f H N M T
  next2 : f.next + 2 ≤ s.f.next
  pos : ∀ x, x < f.next → s.pos x = pos0 x
  posA : s.pos f.next = p
  posN : ∀ n, f.next < n → n < s.f.next → s.pos n = noPos
  far : ∀ n, s.f.next ≤ n → s.pos n = pos0 n
  heads : ∀ b, ∀ n ∈ H b, n = f.next ∨ n = f.next + 1
  slot : f.next ∈ H f.entry
  stored : ∀ b ∈ f.allBbs, v ∈ phisOf f b → f.next + 1 ∈ H b
  aft : ∀ x, M x = if x = v ∧ (f.insn v).op ≠ .phi then [f.next + 1] else []
  insnA : s.f.insn f.next = mkAlloc .t64
  insnS : s.f.insn (f.next + 1) = mkStore f.next (.insn v)
  loads : ∀ n, f.next + 2 ≤ n → n < s.f.next → s.f.insn n = theLoad f.next
  liveA : Live s.f f.next
  newN : ∀ x, ∀ n ∈ N x, f.next + 2 ≤ n ∧ n < s.f.next
  newT : ∀ b, ∀ n ∈ T b, f.next + 2 ≤ n ∧ n < s.f.next
  insn : ∀ b ∈ f.allBbs, ∀ x ∈ codeOf f b, s.f.insn x = f.insn x ∨ ∃ n ∈ N x, s.f.insn x = mapOps (sub v (.insn n)) (f.insn x)
  phi : ∀ b ∈ f.allBbs, ∀ x ∈ phisOf f b, ∃ q, s.f.insn x = { f.insn x with phi := q } ∧ All2 (PhiRel f v N T) (f.insn x).phi q
  fixed : ∀ x, Live f x → ¬ InBody f x → s.f.insn x = f.insn x
  tail : ∀ b ∈ f.allBbs, ∀ A z, codeOf f b = A ++ [z] → isJmp (f.insn z).op = true → T b = []
  cover : CoverP s.f X
  users : UsersIn s.f

variable {f : Fn} {R : List Nat} {pos0 : Nat → VrPos} {p : VrPos} {v : Nat} {X : Nat → Nat → Prop} {s : Cg} {H N M T : Nat → List Nat}

theorem inBody_split {f : Fn} {x : Nat} (h : InBody f x) : ∃ b ∈ f.allBbs, x ∈ phisOf f b ∨ x ∈ codeOf f b := by
  obtain ⟨b, hb, hx⟩ := h
  rw [← phisOf_append f b] at hx
  exact ⟨b, hb, List.mem_append.1 hx⟩

theorem SpInv.op (h : SpInv f pos0 p v X s H N M T) {b x : Nat} (hb : b ∈ f.allBbs) (hx : x ∈ f.body b) : (s.f.insn x).op = (f.insn x).op := by
  rw [← phisOf_append f b] at hx
  rcases List.mem_append.1 hx with hx | hx
  · obtain ⟨q, e, -⟩ := h.phi b hb x hx
    rw [e]
  · rcases h.insn b hb x hx with e | ⟨n, -, e⟩
    · rw [e]
    · rw [e]; rfl

theorem SpInv.opH (h : SpInv f pos0 p v X s H N M T) {b n : Nat} (hn : n ∈ H b) : (s.f.insn n).op = .alloc ∨ (s.f.insn n).op = .store := by
  rcases h.heads b n hn with rfl | rfl
  · rw [h.insnA]; exact .inl rfl
  · rw [h.insnS]; exact .inr rfl

theorem SpInv.code (h : SpInv f pos0 p v X s H N M T) {b : Nat} (hb : b ∈ f.allBbs) :
    phisOf s.f b = phisOf f b ∧ codeOf s.f b = H b ++ (ex N M (codeOf f b) ++ T b) := by
  refine h.grown.code hb (fun x hx => h.op hb hx) (fun n hn => ?_) (fun x _ n hn => ?_) (fun n hn => ?_)
  · rcases h.opH hn with e | e <;> rw [e] <;> simp
  · obtain ⟨h1, h2⟩ := h.newN x n hn
    rw [h.loads n h1 h2]; simp [theLoad, mkLoad]
  · obtain ⟨h1, h2⟩ := h.newT b n hn
    rw [h.loads n h1 h2]; simp [theLoad, mkLoad]

theorem all2_imp {α β : Type} {P Q : α → β → Prop} (hi : ∀ a b, P a b → Q a b) : ∀ {l : List α} {m : List β}, All2 P l m → All2 Q l m
  | _, _, .nil => .nil
  | _, _, .cons h t => .cons (hi _ _ h) (all2_imp hi t)

theorem all2_refl {α : Type} {P : α → α → Prop} (hi : ∀ a, P a a) : ∀ (l : List α), All2 P l l
  | [] => .nil
  | a :: l => .cons (hi a) (all2_refl hi l)

theorem all2_set {α β : Type} {P : α → β → Prop} {x y : β} (hi : ∀ a, P a x → P a y) {r : List β} : ∀ {D : List β} {l : List α}, All2 P l (D ++ x :: r) → All2 P l (D ++ y :: r)
  | [], _, .cons h t => .cons (hi _ h) t
  | _ :: _, _, .cons h t => .cons h (all2_set hi t)

theorem all2_right {α β : Type} {P : α → β → Prop} {y : β} : ∀ {l : List α} {m : List β}, All2 P l m → y ∈ m → ∃ x ∈ l, P x y
  | _, _, .cons h t, hy => by
    rcases List.mem_cons.1 hy with rfl | hy
    · exact ⟨_, List.mem_cons_self, h⟩
    · obtain ⟨x, h1, h2⟩ := all2_right t hy
      exact ⟨x, List.mem_cons_of_mem _ h1, h2⟩

theorem SpInv.inserted (h : SpInv f pos0 p v X s H N M T) (hB : Base f R) {b : Nat} (hb : b ∈ f.allBbs) {g : Fn} (ha : Added s.f (theLoad f.next) b g)
    {N' T' : Nat → List Nat} (hg : Grown f g H N' M T') (hN : ∀ x, N' x = N x ∨ N' x = N x ++ [s.f.next]) (hT : ∀ c, T' c = T c ∨ T' c = T c ++ [s.f.next])
    (htail : ∀ b ∈ f.allBbs, ∀ A z, codeOf f b = A ++ [z] → isJmp (f.insn z).op = true → T' b = []) :
    SpInv f pos0 p v X ⟨g, upd s.pos s.f.next noPos⟩ H N' M T' := by
  have hb' : b ∈ s.f.allBbs := by rw [h.grown.allBbs]; exact hb
  have n2 := h.next2
  have hnx := ha.next
  have hold : ∀ z, z < s.f.next → g.insn z = s.f.insn z := fun z hz => by rw [ha.insn]; exact upd_ne _ _ (by omega)
  have hN' : ∀ x n, n ∈ N x → n ∈ N' x := fun x n hn => by rcases hN x with e | e <;> rw [e] <;> simp [hn]
  have hT' : ∀ x n, n ∈ T x → n ∈ T' x := fun x n hn => by rcases hT x with e | e <;> rw [e] <;> simp [hn]
  have hlt : ∀ x, Live f x → x < s.f.next := fun x hx => by have := hB.tidy.lt x hx; omega
  have hops : ∀ y, .insn y ∈ operands (theLoad f.next) → Live s.f y := by
    intro y hy
    have : y = f.next := by simpa [theLoad, mkLoad, operands, raw] using hy
    rw [this]; exact h.liveA
  refine ⟨hg, by dsimp only; omega, fun x hx => ?_, ?_, fun n h1 h2 => ?_, fun n hn => ?_, h.heads, h.slot, h.stored, h.aft, ?_, ?_, fun n h1 h2 => ?_, ?_, fun x n hn => ?_, fun x n hn => ?_,
    fun c hc x hx => ?_, fun c hc x hx => ?_, fun x h1 h2 => ?_, htail, h.cover.added h.grown.tidy ha hb', h.users.added h.grown.tidy ha hb' hops⟩
  · dsimp only; rw [upd_ne _ _ (by omega)]; exact h.pos x hx
  · dsimp only; rw [upd_ne _ _ (by omega)]; exact h.posA
  · dsimp only at h2 ⊢
    by_cases e : n = s.f.next
    · rw [e, upd_same]
    · rw [upd_ne _ _ e]; exact h.posN n h1 (by omega)
  · dsimp only at hn ⊢
    rw [upd_ne _ _ (by omega)]; exact h.far n (by omega)
  · exact (hold _ (by omega)).trans h.insnA
  · exact (hold _ (by omega)).trans h.insnS
  · dsimp only at h2 ⊢
    by_cases e : n = s.f.next
    · rw [ha.insn, e, upd_same]
    · exact (hold n (by omega)).trans (h.loads n h1 (by omega))
  · exact (ha.live hb').2 (.inr h.liveA)
  · dsimp only
    rcases hN x with e | e <;> rw [e] at hn
    · have := h.newN x n hn; omega
    · rcases List.mem_append.1 hn with hn | hn
      · have := h.newN x n hn; omega
      · rw [List.mem_singleton] at hn; omega
  · dsimp only
    rcases hT x with e | e <;> rw [e] at hn
    · have := h.newT x n hn; omega
    · rcases List.mem_append.1 hn with hn | hn
      · have := h.newT x n hn; omega
      · rw [List.mem_singleton] at hn; omega
  · have hx' : x ∈ f.body c := by rw [← phisOf_append f c]; exact List.mem_append_right _ hx
    have := hold x (hlt x (.inr (.inr ⟨c, hc, hx'⟩)))
    dsimp only
    rw [this]
    rcases h.insn c hc x hx with e | ⟨n, h1, e⟩
    · exact .inl e
    · exact .inr ⟨n, hN' x n h1, e⟩
  · have hx' : x ∈ f.body c := by rw [← phisOf_append f c]; exact List.mem_append_left _ hx
    have := hold x (hlt x (.inr (.inr ⟨c, hc, hx'⟩)))
    dsimp only
    rw [this]
    obtain ⟨q, e1, e2⟩ := h.phi c hc x hx
    refine ⟨q, e1, all2_imp (fun o o' => ?_) e2⟩
    rintro ⟨h1, h2 | ⟨h2, n, h3, h4, h5⟩⟩
    · exact ⟨h1, .inl h2⟩
    · refine ⟨h1, .inr ⟨h2, n, h3, h4, ?_⟩⟩
      rcases h5 with h5 | ⟨A, z, z1, z2, z3⟩
      · exact .inl (hT' _ _ h5)
      · exact .inr ⟨A, z, z1, z2, hN' _ _ z3⟩
  · exact (hold x (hlt x h1)).trans (h.fixed x h1 h2)

theorem SpInv.reloadOp (h : SpInv f pos0 p v X s H N M T) : mkReload s.f f.next = theLoad f.next := by
  unfold mkReload theLoad; rw [h.insnA]; rfl

theorem SpInv.ops (h : SpInv f pos0 p v X s H N M T) : ∀ y, .insn y ∈ operands (theLoad f.next) → Live s.f y := by
  intro y hy
  have : y = f.next := by simpa [theLoad, mkLoad, operands, raw] using hy
  rw [this]; exact h.liveA

/-- The operands of one instruction are changed. -/
theorem SpInv.patched (h : SpInv f pos0 p v X s H N M T) (hB : Base f R) {u : Nat} {g : Fn} (hc : Changed s.f u g) (hu : InBody f u)
    (hcl : ∀ y, 0 < refs (g.insn u) y → Live s.f y)
    (h1 : ∀ b ∈ f.allBbs, u ∈ codeOf f b → g.insn u = f.insn u ∨ ∃ n ∈ N u, g.insn u = mapOps (sub v (.insn n)) (f.insn u))
    (h2 : ∀ b ∈ f.allBbs, u ∈ phisOf f b → ∃ q, g.insn u = { f.insn u with phi := q } ∧ All2 (PhiRel f v N T) (f.insn u).phi q)
    {Y : Nat → Nat → Prop} (hcov : CoverP g Y) : SpInv f pos0 p v Y ⟨g, s.pos⟩ H N M T := by
  have hlt := hB.tidy.lt u (.inr (.inr hu))
  have hnx := hc.patched.next
  have hgr : Grown f g H N M T := h.grown.patch hc.entry hc.succs hc.preds hc.patched.allBbs hc.patched.sp hc.patched.args hnx hc.patched.body
    (hc.patched.tidy h.grown.tidy (fun _ => hcl))
  have hus : InBody s.f u := by
    obtain ⟨b, hb, hx⟩ := hu
    exact ⟨b, by rw [h.grown.allBbs]; exact hb, h.grown.stay hb hx⟩
  refine ⟨hgr, by dsimp only; rw [hnx]; exact h.next2, h.pos, h.posA, fun n => by dsimp only; rw [hnx]; exact h.posN n, fun n => by dsimp only; rw [hnx]; exact h.far n,
    h.heads, h.slot, h.stored, h.aft, ?_, ?_, fun n h1 h2 => ?_, hc.patched.live.2 h.liveA, fun x n => by dsimp only; rw [hnx]; exact h.newN x n,
    fun x n => by dsimp only; rw [hnx]; exact h.newT x n, fun c hcc x hx => ?_, fun c hcc x hx => ?_, fun x h1 h2 => ?_, h.tail, hcov, h.users.changed hc hus⟩
  · exact (hc.patched.insn _ (by omega)).trans h.insnA
  · exact (hc.patched.insn _ (by omega)).trans h.insnS
  · exact (hc.patched.insn _ (by omega)).trans (h.loads n h1 (by rw [← hnx]; exact h2))
  · by_cases e : x = u
    · subst e; exact h1 c hcc hx
    · dsimp only; rw [hc.patched.insn x e]; exact h.insn c hcc x hx
  · by_cases e : x = u
    · subst e; exact h2 c hcc hx
    · dsimp only; rw [hc.patched.insn x e]; exact h.phi c hcc x hx
  · have e : x ≠ u := fun e => h2 (e ▸ hu)
    exact (hc.patched.insn x e).trans (h.fixed x h1 h2)

/-- Which instructions are spilled this way. -/
structure Spills (f : Fn) (v : Nat) : Prop where
  inb : InBody f v
  alloc : (f.insn v).op ≠ .alloc
  jmp : isJmp (f.insn v).op = false

theorem SpInv.guard (h : SpInv f pos0 p v X s H N M T) (hB : Base f R) (hv : Spills f v) {b u : Nat} (hb : b ∈ f.allBbs) (hu : u ∈ f.body b) :
    ¬ (((s.f.insn u).op = .store ∨ (s.f.insn u).op = .load) ∧ (s.f.insn u).vals.head? = some (.insn u)) := by
  rintro ⟨h1, h2⟩
  rw [h.op hb hu] at h1
  obtain ⟨a, r, e1, e2⟩ := hB.access u ⟨b, hb, hu⟩ h1.symm
  have hav : a ≠ v := fun e => hv.alloc (e ▸ e2)
  have hc : u ∈ codeOf f b := by
    rw [← phisOf_append f b] at hu
    rcases List.mem_append.1 hu with hu | hu
    · rw [phisOf_phi hu] at h1; simp at h1
    · exact hu
  have : (s.f.insn u).vals.head? = some (.insn a) := by
    rcases h.insn b hb u hc with e | ⟨n, -, e⟩
    · rw [e, e1]; rfl
    · rw [e]
      show ((f.insn u).vals.map _).head? = _
      rw [e1]
      simp [sub, hav]
  rw [this] at h2
  have : a = u := by simpa using h2
  subst this
  rw [e2] at h1
  simp at h1

/-- An instruction that is not a phi gets its own load. -/
theorem SpInv.reload_code (h : SpInv f pos0 p v (fun _ _ => False) s H N M T) (hB : Base f R) (hv : Spills f v) {b u : Nat} (hb : b ∈ f.allBbs) (hu : u ∈ codeOf f b) :
    ∃ s' N', reload v f.next u s = .ok s' ∧ SpInv f pos0 p v (fun _ _ => False) s' H N' M T ∧ refs (s'.f.insn u) v = 0 ∧
      (∀ w, w < f.next → w ≠ u → s'.f.insn w = s.f.insn w) := by
  have hub : u ∈ f.body b := by rw [← phisOf_append f b]; exact List.mem_append_right _ hu
  have huL : Live f u := .inr (.inr ⟨b, hb, hub⟩)
  have hult := hB.tidy.lt u huL
  have hvlt := hB.tidy.lt v (.inr (.inr hv.inb))
  have n2 := h.next2
  have hop : (s.f.insn u).op ≠ .phi := by rw [h.op hb hub]; exact hB.front b hb u hu
  obtain ⟨g, h1, ha, hg⟩ := h.grown.front hB.tidy hb hu hop h.ops
  have hI := h.inserted hB hb ha hg (fun x => by
      by_cases e : x = u
      · subst e; rw [upd_same]; exact .inr rfl
      · rw [upd_ne _ _ e]; exact .inl rfl) (fun c => .inl rfl) h.tail
  have hne : s.f.next ≠ v := by omega
  have hr : Val.insn s.f.next ≠ .insn v := fun e => hne (Val.insn.inj e)
  obtain ⟨hc, hi⟩ := changeAll_changed hr g u
  have hgl : Live g u := hg.live huL
  have hgn : Live g s.f.next := (ha.live (by rw [h.grown.allBbs]; exact hb)).2 (.inl rfl)
  have hgu : g.insn u = s.f.insn u := by rw [ha.insn]; exact upd_ne _ _ (by omega)
  have hz : refs ((changeAll v (.insn s.f.next) g u).insn u) v = 0 := by
    rw [hi, refs_eq, operands_mapOps, count_sub _ _ _ _ hr, if_pos rfl, if_neg hr]
  have hP := hI.patched hB (g := changeAll v (.insn s.f.next) g u) hc ⟨b, hb, hub⟩ ?_ ?_ ?_ (hI.cover.changeAll hne hgl)
  · refine ⟨_, _, ?_, hP, hz, fun w hw hwu => ?_⟩
    · unfold reload
      rw [if_neg (h.guard hB hv hb hub), if_neg hop, h.reloadOp, h1, Out.ok_bind]
    · dsimp only
      rw [hc.patched.insn w hwu, ha.insn]
      exact upd_ne _ _ (by omega)
  · intro y hy
    dsimp only
    rw [hi, refs_pos, operands_mapOps] at hy
    obtain ⟨w, hw, e⟩ := List.mem_map.1 hy
    unfold sub at e
    by_cases e2 : w = .insn v
    · rw [if_pos e2] at e
      rw [← Val.insn.inj e]; exact hgn
    · rw [if_neg e2] at e
      subst e
      exact hg.tidy.closed u y hgl (refs_pos.2 hw)
  · intro c hcb hx
    right
    rw [hi, hgu, upd_same]
    rcases h.insn b hb u hu with e | ⟨n, hn, e⟩
    · exact ⟨s.f.next, by simp, by rw [e]⟩
    · refine ⟨n, by simp [hn], ?_⟩
      have hnv : n ≠ v := by have := (h.newN u n hn).1; omega
      rw [e, mapOps_comp]
      congr 1
      funext w
      unfold sub
      by_cases e2 : w = .insn v
      · rw [if_pos e2, if_neg (fun e => hnv (Val.insn.inj e))]
      · rw [if_neg e2, if_neg e2]
  · intro c hcb hx
    exact absurd (phisOf_phi hx) (hB.front b hb u hu)

/-- A load at the end of a block. -/
theorem SpInv.loadEnd (h : SpInv f pos0 p v X s H N M T) (hB : Base f R) (hv : Spills f v) {c : Nat} (hc : c ∈ f.allBbs) :
    ∃ N' T', Added s.f (theLoad f.next) c (createBb s.f (theLoad f.next) c .backBeforeJmp) ∧
      SpInv f pos0 p v X ⟨createBb s.f (theLoad f.next) c .backBeforeJmp, upd s.pos s.f.next noPos⟩ H N' M T' ∧ AtEnd f N' T' c s.f.next := by
  by_cases hj : ∃ A z, codeOf f c = A ++ [z] ∧ isJmp (f.insn z).op = true
  · obtain ⟨A, z, e, hj⟩ := hj
    have hzc : z ∈ codeOf f c := by rw [e]; simp
    have hzb : z ∈ f.body c := by rw [← phisOf_append f c]; exact List.mem_append_right _ hzc
    have hM : M z = [] := by
      rw [h.aft, if_neg]
      rintro ⟨e, -⟩
      have := hv.jmp
      rw [← e, hj] at this
      cases this
    obtain ⟨ha, hg⟩ := h.grown.beforeJmp hB.tidy hc e (by rw [h.op hc hzb]; exact hj) hM (h.tail c hc A z e hj) h.ops
    refine ⟨_, _, ha, h.inserted hB hc ha hg (fun x => ?_) (fun c => .inl rfl) h.tail, .inr ⟨A, z, e, hj, by rw [upd_same]; simp⟩⟩
    by_cases e : x = z
    · subst e; rw [upd_same]; exact .inr rfl
    · rw [upd_ne _ _ e]; exact .inl rfl
  · have hlast : ∀ z, (s.f.body c).getLast? = some z → isJmp (s.f.insn z).op = false := by
      intro z hz
      rw [h.grown.body c hc] at hz
      rcases List.eq_nil_or_concat (T c) with eT | ⟨t, y, eT⟩
      · rcases List.eq_nil_or_concat (codeOf f c) with eC | ⟨t, y, eC⟩
        · rw [eT, eC] at hz
          simp only [ex, List.flatMap_nil, List.append_nil] at hz
          have hz := List.mem_of_getLast? hz
          rcases List.mem_append.1 hz with hz | hz
          · rw [h.op hc (by rw [← phisOf_append f c]; exact List.mem_append_left _ hz), phisOf_phi hz]; rfl
          · rcases h.opH hz with e | e <;> rw [e] <;> rfl
        · have hyb : y ∈ f.body c := by rw [← phisOf_append f c, eC]; simp
          by_cases hm : y = v ∧ (f.insn v).op ≠ .phi
          · have hM := h.aft y
            rw [if_pos hm] at hM
            rw [eT, eC, List.concat_eq_append, ex_append, ex_cons, hM] at hz
            simp [ex] at hz
            rw [← hz, h.insnS]; rfl
          · have hM := h.aft y
            rw [if_neg hm] at hM
            rw [eT, eC, List.concat_eq_append, ex_append, ex_cons, hM] at hz
            simp [ex] at hz
            subst hz
            rw [h.op hc hyb]
            cases e : isJmp (f.insn y).op with
            | false => rfl
            | true => exact absurd ⟨t, y, by rw [eC, List.concat_eq_append], e⟩ hj
      · rw [eT] at hz
        simp at hz
        have := h.newT c y (by rw [eT]; simp)
        rw [← hz, h.loads y this.1 this.2]; rfl
    obtain ⟨ha, hg⟩ := h.grown.atBack hc hlast h.ops
    refine ⟨_, _, ha, h.inserted hB hc ha hg (fun c => .inl rfl) (fun x => ?_) (fun b hb A z e1 e2 => ?_), .inl (by rw [upd_same]; simp)⟩
    · by_cases e : x = c
      · subst e; rw [upd_same]; exact .inr rfl
      · rw [upd_ne _ _ e]; exact .inl rfl
    · by_cases e : b = c
      · subst e; exact absurd ⟨A, z, e1, e2⟩ hj
      · rw [upd_ne _ _ e]; exact h.tail b hb A z e1 e2

/-- The operands of a phi. -/
theorem SpInv.reload_phi (hB : Base f R) (hv : Spills f v) {b u : Nat} (hb : b ∈ f.allBbs) (hu : u ∈ phisOf f b) : ∀ (r D : List (Nat × Val)) (s : Cg) (N T : Nat → List Nat),
    SpInv f pos0 p v (fun w y => w = u ∧ y = v) s H N M T → (s.f.insn u).phi = D ++ r → (∀ o ∈ D, o.2 ≠ .insn v) →
    ∃ s' N' T', reloadPhi v f.next u r D.length s = .ok s' ∧ SpInv f pos0 p v (fun w y => w = u ∧ y = v) s' H N' M T' ∧
      (∀ o ∈ (s'.f.insn u).phi, o.2 ≠ .insn v) ∧ (∀ w, w < f.next → w ≠ u → s'.f.insn w = s.f.insn w)
  | [], D, s, N, T, h, e, hD => ⟨s, N, T, rfl, h, by rw [e, List.append_nil]; exact hD, fun _ _ _ => rfl⟩
  | o :: r, D, s, N, T, h, e, hD => by
    have hub : u ∈ f.body b := by rw [← phisOf_append f b]; exact List.mem_append_left _ hu
    have huL : Live f u := .inr (.inr ⟨b, hb, hub⟩)
    have hult := hB.tidy.lt u huL
    have hvlt := hB.tidy.lt v (.inr (.inr hv.inb))
    have n2 := h.next2
    by_cases hov : o.2 = .insn v
    · obtain ⟨q, eq, hq⟩ := h.phi b hb u hu
      have hqe : q = D ++ o :: r := by rw [← e, eq]
      obtain ⟨o0, ho0, hrel⟩ := all2_right hq (y := o) (by rw [hqe]; simp)
      have hc : o.1 ∈ f.allBbs := by rw [hrel.1]; exact hB.labels u ⟨b, hb, hub⟩ o0 ho0
      obtain ⟨N1, T1, ha, hI, hend⟩ := h.loadEnd hB hv hc
      have hgu : (createBb s.f (theLoad f.next) o.1 .backBeforeJmp).insn u = s.f.insn u := by rw [ha.insn]; exact upd_ne _ _ (by omega)
      have hop : ((createBb s.f (theLoad f.next) o.1 .backBeforeJmp).insn u).op = .phi := by rw [hgu, eq]; exact phisOf_phi hu
      have hph : ((createBb s.f (theLoad f.next) o.1 .backBeforeJmp).insn u).phi = D ++ (o.1, o.2) :: r := by rw [hgu, e]
      obtain ⟨g, g1, g2, g3, g4⟩ := changeValue_phi (rep := .insn s.f.next) hop hph
      rw [hgu] at g3
      have hgl : Live (createBb s.f (theLoad f.next) o.1 .backBeforeJmp) u := hI.grown.live huL
      have hgn : Live (createBb s.f (theLoad f.next) o.1 .backBeforeJmp) s.f.next := (ha.live (by rw [h.grown.allBbs]; exact hc)).2 (.inl rfl)
      have hcl : ∀ y, 0 < refs (g.insn u) y → y = s.f.next ∨ 0 < refs (s.f.insn u) y := by
        intro y hy
        rw [refs_pos] at hy ⊢
        rw [g3] at hy
        have hop' : (s.f.insn u).op = .phi := by rw [eq]; exact phisOf_phi hu
        simp only [operands, hop', if_true, e, List.map_append, List.map_cons, List.mem_append, List.mem_cons] at hy ⊢
        rcases hy with (hy | hy | hy | hy) | hy
        · exact .inr (.inl (.inl hy))
        · exact .inr (.inl (.inr (.inl hy)))
        · exact .inl (Val.insn.inj hy)
        · exact .inr (.inl (.inr (.inr (.inr hy))))
        · exact .inr (.inr hy)
      have hP := hI.patched hB (g := g) g2 ⟨b, hb, hub⟩ (fun y hy => ?_) (fun c hcb hx => absurd (phisOf_phi hu) (hB.front c hcb u hx))
        (fun c hcb hx => ⟨D ++ (o.1, .insn s.f.next) :: r, ?_, ?_⟩) (hI.cover.changed g2 (fun y hn hy => ?_))
      · have := SpInv.reload_phi hB hv hb hu r (D ++ [(o.1, .insn s.f.next)]) ⟨g, upd s.pos s.f.next noPos⟩ N1 T1 hP (by dsimp only; rw [g3]; simp) (fun o' ho' => by
            rcases List.mem_append.1 ho' with ho' | ho'
            · exact hD o' ho'
            · rw [List.mem_singleton] at ho'
              rw [ho']
              intro e
              have := Val.insn.inj e
              omega)
        obtain ⟨s', N', T', k1, k2, k3, k4⟩ := this
        refine ⟨s', N', T', ?_, k2, k3, fun w hw hwu => ?_⟩
        · rw [reloadPhi, if_pos hov, h.reloadOp, g1, Out.ok_bind]
          rw [List.length_append] at k1
          exact k1
        · rw [k4 w hw hwu]
          dsimp only
          rw [g2.patched.insn w hwu, ha.insn]
          exact upd_ne _ _ (by omega)
      · rcases hcl y hy with e | h1
        · rw [e]; exact hgn
        · exact (ha.live (by rw [h.grown.allBbs]; exact hc)).2 (.inr (h.grown.tidy.closed u y (h.grown.live huL) h1))
      · rw [g3, eq]
      · obtain ⟨q', e1, e2⟩ := hI.phi b hb u hu
        have : q' = D ++ o :: r := by
          dsimp only at e1
          rw [hgu, eq] at e1
          rw [← hqe]
          injection e1 with _ _ e3 
          exact e3.symm
        rw [this] at e2
        refine all2_set (fun a ha => ?_) e2
        obtain ⟨a1, a2⟩ := ha
        refine ⟨a1, .inr ⟨?_, s.f.next, rfl, n2, by rw [← a1]; exact hend⟩⟩
        rcases a2 with a2 | ⟨a2, -⟩
        · rw [← a2]; exact hov
        · exact a2
      · have hyv : y ≠ v := fun e => hn ⟨rfl, e⟩
        rw [← List.count_pos_iff, g4, hov, if_neg (fun e => hyv (Val.insn.inj e).symm)]
        rcases hcl y hy with e1 | e1
        · rw [if_pos (by rw [e1])]; omega
        · have := List.count_pos_iff.2 (hI.cover y u hgl hn (by dsimp only; rw [hgu]; exact e1))
          dsimp only at this
          omega
    · obtain ⟨s', N', T', k1, k2, k3, k4⟩ := SpInv.reload_phi hB hv hb hu r (D ++ [o]) s N T h (by rw [e]; simp) (fun o' ho' => by
          rcases List.mem_append.1 ho' with ho' | ho'
          · exact hD o' ho'
          · rw [List.mem_singleton] at ho'; rw [ho']; exact hov)
      refine ⟨s', N', T', ?_, k2, k3, k4⟩
      rw [reloadPhi, if_neg hov]
      rw [List.length_append] at k1
      exact k1

theorem SpInv.weaken (h : SpInv f pos0 p v X s H N M T) {Y : Nat → Nat → Prop} (hc : CoverP s.f Y) : SpInv f pos0 p v Y s H N M T :=
  ⟨h.grown, h.next2, h.pos, h.posA, h.posN, h.far, h.heads, h.slot, h.stored, h.aft, h.insnA, h.insnS, h.loads, h.liveA, h.newN, h.newT, h.insn, h.phi, h.fixed, h.tail, hc, h.users⟩

/-- One user. -/
theorem SpInv.reload (h : SpInv f pos0 p v (fun _ _ => False) s H N M T) (hB : Base f R) (hv : Spills f v) {u : Nat} (hu : InBody f u) :
    ∃ s' N' T', reload v f.next u s = .ok s' ∧ SpInv f pos0 p v (fun _ _ => False) s' H N' M T' ∧ refs (s'.f.insn u) v = 0 ∧
      (∀ w, w < f.next → w ≠ u → s'.f.insn w = s.f.insn w) := by
  obtain ⟨b, hb, hx | hx⟩ := inBody_split hu
  · have hub : u ∈ f.body b := by rw [← phisOf_append f b]; exact List.mem_append_left _ hx
    have hop : (s.f.insn u).op = .phi := by rw [h.op hb hub]; exact phisOf_phi hx
    obtain ⟨s', N', T', h1, h2, h3, h4⟩ := SpInv.reload_phi hB hv hb hx (s.f.insn u).phi [] s N T (h.weaken (h.cover.mono (fun _ _ e => e.elim))) rfl (by simp)
    have hz : refs (s'.f.insn u) v = 0 := by
      obtain ⟨q, e, -⟩ := h2.phi b hb u hx
      refine Nat.eq_zero_of_not_pos (fun hp => ?_)
      rw [refs_pos] at hp
      have hop' : (s'.f.insn u).op = .phi := by rw [e]; exact phisOf_phi hx
      have hva : (s'.f.insn u).vals = [] := by rw [e]; exact hB.phiVals u hu (phisOf_phi hx)
      simp only [operands, hop', if_true, hva, List.nil_append, raw] at hp
      simp only [List.mem_append, List.mem_map] at hp
      rcases hp with ⟨o, ho, e2⟩ | hp
      · exact h3 o ho e2
      · simp at hp
    refine ⟨s', N', T', ?_, h2.weaken ?_, hz, h4⟩
    · unfold Cg.reload
      rw [if_neg (h.guard hB hv hb hub), if_pos hop]
      exact h1
    · intro y w hw _ hr
      refine h2.cover y w hw ?_ hr
      rintro ⟨rfl, rfl⟩
      omega
  · obtain ⟨s', N', h1, h2, h3, h4⟩ := h.reload_code hB hv hb hx
    exact ⟨s', N', T, h1, h2, h3, h4⟩

/-- All users. -/
theorem SpInv.reloads (hB : Base f R) (hv : Spills f v) : ∀ (us : List Nat) (s : Cg) (N T : Nat → List Nat), SpInv f pos0 p v (fun _ _ => False) s H N M T →
    (∀ u ∈ us, InBody f u) → (∀ w, Live f w → w ∈ us ∨ refs (s.f.insn w) v = 0) →
    ∃ s' N' T', reloads v f.next us s = .ok s' ∧ SpInv f pos0 p v (fun _ _ => False) s' H N' M T' ∧ ∀ w, Live f w → refs (s'.f.insn w) v = 0
  | [], s, N, T, h, _, hr => ⟨s, N, T, rfl, h, fun w hw => (hr w hw).resolve_left (by simp)⟩
  | u :: us, s, N, T, h, hu, hr => by
    obtain ⟨s1, N1, T1, h1, h2, h3, h4⟩ := h.reload hB hv (hu u List.mem_cons_self)
    obtain ⟨s2, N2, T2, k1, k2, k3⟩ := SpInv.reloads hB hv us s1 N1 T1 h2 (fun w hw => hu w (List.mem_cons_of_mem _ hw)) (fun w hw => by
      by_cases e : w = u
      · rw [e]; exact .inr h3
      · rw [h4 w (hB.tidy.lt w hw) e]
        rcases hr w hw with h | h
        · exact .inl ((List.mem_cons.1 h).resolve_left e)
        · exact .inr h)
    exact ⟨s2, N2, T2, by rw [Cg.reloads, h1, Out.ok_bind]; exact k1, k2, k3⟩

/-- The variable and the store. -/
theorem SpInv.start (hB : Base f R) (hv : Spills f v) (off : VrPos) :
    ∃ h H, createAt (createBb f (mkAlloc .t64) f.entry .frontAfterPhi) (mkStore f.next (.insn v)) v .back = .ok h ∧
      (createBb f (mkAlloc .t64) f.entry .frontAfterPhi).next = f.next + 1 ∧
      SpInv f pos0 off v (fun _ _ => False) ⟨h, upd (upd pos0 f.next off) (f.next + 1) noPos⟩ H (fun _ => [])
        (fun x => if x = v ∧ (f.insn v).op ≠ .phi then [f.next + 1] else []) (fun _ => []) ∧
      ∀ w, w < f.next → h.insn w = f.insn w := by
  have hent : f.entry ∈ f.allBbs := hB.sub _ hB.flow.entry
  have hvlt := hB.tidy.lt v (.inr (.inr hv.inb))
  have ha := added_createBb f (mkAlloc .t64) f.entry .frontAfterPhi
  have hg1 := (Grown.start hB.tidy).afterPhi hent (fun _ _ => rfl) (by simp) (by simp) (by simp) (i := mkAlloc .t64) (by simp [mkAlloc, operands, raw])
  generalize hgd : createBb f (mkAlloc .t64) f.entry .frontAfterPhi = g at ha hg1
  have hnx := ha.next
  have hio : ∀ w, w < f.next → g.insn w = f.insn w := fun w hw => by rw [ha.insn]; exact upd_ne _ _ (by omega)
  have hiA : g.insn f.next = mkAlloc .t64 := by rw [ha.insn]; exact upd_same ..
  have hcov := hB.cover.added hB.tidy ha hent
  have hus := hB.users.added hB.tidy ha hent (by simp [mkAlloc, operands, raw])
  have hlA : Live g f.next := (ha.live hent).2 (.inl rfl)
  have hlV : Live g v := (ha.live hent).2 (.inr (.inr (.inr hv.inb)))
  have hops : ∀ y, .insn y ∈ operands (mkStore f.next (.insn v)) → Live g y := by
    intro y hy
    simp [mkStore, operands, raw] at hy
    rcases hy with rfl | rfl
    · exact hlA
    · exact hlV
  obtain ⟨b, hb, hvb⟩ := hv.inb
  have hbg : b ∈ g.allBbs := by rw [ha.allBbs]; exact hb
  have hbdy : ∀ c ∈ f.allBbs, ∀ x ∈ f.body c, (g.insn x).op = (f.insn x).op := fun c hc x hx => by rw [hio x (hB.tidy.lt x (.inr (.inr ⟨c, hc, hx⟩)))]
  have key : ∃ h H, createAt g (mkStore f.next (.insn v)) v .back = .ok h ∧ Added g (mkStore f.next (.insn v)) b h ∧
      Grown f h H (fun _ => []) (fun x => if x = v ∧ (f.insn v).op ≠ .phi then [f.next + 1] else []) (fun _ => []) ∧
      (∀ c, ∀ n ∈ H c, n = f.next ∨ n = f.next + 1) ∧ (∀ c ∈ f.allBbs, v ∈ phisOf f c → f.next + 1 ∈ H c) ∧ f.next ∈ H f.entry := by
    by_cases hop : (f.insn v).op = .phi
    · have hpar : g.parent v = b := hg1.tidy.parent b hbg v (hg1.stay hb hvb)
      have e1 := createAt_phi (g := g) (i := mkStore f.next (.insn v)) (x := v) (pos := .back) (by rw [hio v hvlt]; exact hop) (by omega) (by simp [mkStore])
      rw [hpar] at e1
      have hg2 := hg1.afterPhi hb (hbdy b hb) (fun n hn => by
        by_cases e : b = f.entry
        · subst e; rw [upd_same] at hn
          rw [List.mem_singleton] at hn
          rw [hn, hiA]; simp [mkAlloc]
        · rw [upd_ne _ _ e] at hn; simp at hn) (by simp) (by simp) hops
      have eM : (fun x => if x = v ∧ (f.insn v).op ≠ .phi then [f.next + 1] else []) = (fun _ => ([] : List Nat)) := by
        funext x; rw [if_neg (fun e => e.2 hop)]
      refine ⟨_, upd (upd (fun _ => []) f.entry [f.next]) b (g.next :: upd (fun _ => []) f.entry [f.next] b), e1, added_createBb _ _ _ _, ?_, ?_, ?_, ?_⟩
      · rw [eM]; exact hg2
      · intro c n hn
        by_cases e : c = b
        · subst e
          rw [upd_same] at hn
          rcases List.mem_cons.1 hn with hn | hn
          · omega
          · by_cases e : c = f.entry
            · subst e; rw [upd_same, List.mem_singleton] at hn; exact .inl hn
            · rw [upd_ne _ _ e] at hn; simp at hn
        · rw [upd_ne _ _ e] at hn
          by_cases e : c = f.entry
          · subst e; rw [upd_same, List.mem_singleton] at hn; exact .inl hn
          · rw [upd_ne _ _ e] at hn; simp at hn
      · intro c hc hm
        have : c = b := by
          have h1 := hB.tidy.parent c hc v (by rw [← phisOf_append f c]; exact List.mem_append_left _ hm)
          have h2 := hB.tidy.parent b hb v hvb
          omega
        rw [this, upd_same, hnx]; simp
      · by_cases e : f.entry = b
        · rw [← e, upd_same, upd_same]; simp
        · rw [upd_ne _ _ e, upd_same]; simp
    · have hvc : v ∈ codeOf f b := by
        rw [← phisOf_append f b] at hvb
        rcases List.mem_append.1 hvb with h | h
        · exact absurd (phisOf_phi h) hop
        · exact h
      obtain ⟨h, h1, h2, h3⟩ := hg1.back hB.tidy hb hvc (by rw [hio v hvlt]; exact hop) hops
      refine ⟨h, upd (fun _ => []) f.entry [f.next], h1, h2, ?_, ?_, ?_, by rw [upd_same]; simp⟩
      · have eM : upd (fun _ => ([] : List Nat)) v [g.next] = (fun x => if x = v ∧ (f.insn v).op ≠ .phi then [f.next + 1] else []) := by
          funext x
          by_cases e : x = v
          · rw [e, upd_same, if_pos ⟨rfl, hop⟩, hnx]
          · rw [upd_ne _ _ e, if_neg (fun h => e h.1)]
        rw [← eM]; exact h3
      · intro c n hn
        by_cases e : c = f.entry
        · subst e; rw [upd_same, List.mem_singleton] at hn; exact .inl hn
        · rw [upd_ne _ _ e] at hn; simp at hn
      · intro c _ hm
        exact absurd (phisOf_phi hm) hop
  obtain ⟨h, H, h1, h2, h3, h4, h5, h6⟩ := key
  have hnx2 := h2.next
  have hio2 : ∀ w, w < f.next → h.insn w = f.insn w := fun w hw => by rw [h2.insn, upd_ne _ _ (by omega)]; exact hio w hw
  have hL : ∀ c ∈ f.allBbs, ∀ x ∈ f.body c, x < f.next := fun c hc x hx => hB.tidy.lt x (.inr (.inr ⟨c, hc, hx⟩))
  refine ⟨h, H, h1, hnx, ⟨h3, by dsimp only; omega, fun x hx => ?_, ?_, fun n n1 n2 => ?_, fun n n1 => ?_, h4, h6, h5, fun x => rfl, ?_, ?_, fun n n1 n2 => ?_,
    (h2.live hbg).2 (.inr hlA), by simp, by simp, fun c hc x hx => .inl ?_, fun c hc x hx => ⟨(f.insn x).phi, ?_, all2_refl (fun o => ⟨rfl, .inl rfl⟩) _⟩, fun x hx _ => ?_,
    by simp, hcov.added hg1.tidy h2 hbg, hus.added hg1.tidy h2 hbg hops⟩, hio2⟩
  · dsimp only; rw [upd_ne _ _ (by omega), upd_ne _ _ (by omega)]
  · dsimp only; rw [upd_ne _ _ (by omega), upd_same]
  · dsimp only at n2 ⊢
    have : n = f.next + 1 := by omega
    rw [this, upd_same]
  · dsimp only at n1 ⊢
    rw [upd_ne _ _ (by omega), upd_ne _ _ (by omega)]
  · dsimp only; rw [h2.insn, upd_ne _ _ (by omega)]; exact hiA
  · dsimp only; rw [h2.insn, ← hnx, upd_same]
  · dsimp only at n2; omega
  · exact hio2 x (hL c hc x (by rw [← phisOf_append f c]; exact List.mem_append_right _ hx))
  · exact hio2 x (hL c hc x (by rw [← phisOf_append f c]; exact List.mem_append_left _ hx))
  · exact hio2 x (hB.tidy.lt x hx)

end Verif.Cg
