import Verif.Compact.Model
import Verif.IR.Avail
/-!
# Lemmas about code compaction
-/
namespace Verif.Compact
open Verif Verif.IR Verif.Edit

/-! ## Values -/

theorem RelRes.agree_trans {P Q : Nat → Prop} {a b c : Res} (hq : ∀ x, Q x → P x) (h1 : RelRes (Agree P) a b) (h2 : RelRes (Agree Q) b c) :
    RelRes (Agree Q) a c :=
  (h1.trans h2).mono fun _ _ ⟨_, k1, k2⟩ => ⟨fun y hy => (k2.env y hy).trans (k1.env y (hq y hy)), fun y hy => (k2.var y hy).trans (k1.var y (hq y hy)),
    k2.mem.trans k1.mem, k2.trace.trans k1.trace⟩

theorem KeepsValues.refl (W : World) (f : Fn) (σ : St) : KeepsValues W f f σ := by
  intro n
  refine .inr ⟨n, ?_⟩
  have : ∀ σ, Agree (Live f) σ σ := fun σ => ⟨fun _ _ => rfl, fun _ _ => rfl, rfl, rfl⟩
  cases runFn W f n σ with
  | done x σ => exact .done _ _ _ (this _)
  | thrown σ => exact .thrown _ _ (this _)
  | running b r σ => exact .running _ _ _ _ _ _ (this _)
  | stuck => exact .stuck

theorem KeepsValues.trans {W : World} {f g k : Fn} {σ : St} (hl : ∀ x, Live k x → Live g x) (h1 : KeepsValues W f g σ) (h2 : KeepsValues W g k σ) :
    KeepsValues W f k σ := by
  intro n
  rcases h1 n with e | ⟨m, e⟩
  · exact .inl e
  · rcases h2 m with e' | ⟨m', e'⟩
    · rw [e'] at e
      generalize runFn W f n σ = r at e
      cases e
      exact .inl rfl
    · exact .inr ⟨m', RelRes.agree_trans hl e e'⟩

theorem Skips.keeps {W : World} {f g : Fn} {D : Nat → Bool} {R : List Nat → List Nat → St → St → Prop} (S : Skips W f g D R)
    (ho : ∀ h r σ σ', R h r σ σ' → Agree (Live g) σ σ') (σ : St) (h0 : R [f.entry] (f.body f.entry) σ σ) : KeepsValues W f g σ := by
  intro n
  unfold runFn
  rw [S.entry, S.body]
  rcases S.forward n f.entry [] (f.body f.entry) σ σ .entry h0 (List.suffix_refl _) with e | ⟨m, _, e⟩
  · exact .inl e
  · exact .inr ⟨m, e.mono fun σ τ ⟨h, r, hr⟩ => ho h r σ τ hr⟩

/-! ## The search -/

/-- A pair the pass rewrites: `p = y << 32` in block `a`, `c = p >> 32` in block `b`. -/
structure Found (rs : List Nat) (f : Fn) (c : Nat) : Prop where
  ex : ∃ p a b y, a ∈ rs ∧ b ∈ rs ∧ p ∈ f.body a ∧ c ∈ f.body b ∧ (f.insn p).op = .lsh ∧ (f.insn c).op = .rsh ∧
    (f.insn p).vals[0]? = some (.insn y) ∧ (f.insn c).vals[0]? = some (.insn p) ∧
    constOf ((f.insn p).vals[1]?) = some 32 ∧ constOf ((f.insn c).vals[1]?) = some 32

theorem look_fold (rs : List Nat) (f : Fn) : ∀ (l : List Nat) (s : Option Nat × List Nat), (∀ x ∈ l, ∃ a ∈ rs, x ∈ f.body a) →
    (∀ p, s.1 = some p → ∃ a ∈ rs, p ∈ f.body a) → (∀ c ∈ s.2, Found rs f c) → ∀ c ∈ (l.foldl (look f) s).2, Found rs f c
  | [], s, _, _, h => h
  | x :: l, s, hl, hp, h => by
    rw [List.foldl_cons]
    have hx := hl x (by simp)
    have keep : ∀ p, (look f s x).1 = some p → ∃ a ∈ rs, p ∈ f.body a := by
      intro p
      unfold look
      cases hs : s.1 with
      | none => intro e; injection e with e; rw [← e]; exact hx
      | some q =>
        dsimp only
        split
        · split
          · rw [hs]; intro e; injection e with e; rw [← e]; exact hp q hs
          · split
            · rw [hs]; intro e; injection e with e; rw [← e]; exact hp q hs
            · split <;> (intro e; injection e with e; rw [← e]; exact hx)
        · intro e; injection e with e; rw [← e]; exact hx
    refine look_fold rs f l _ (fun y hy => hl y (by simp [hy])) keep ?_
    intro c
    unfold look
    cases hs : s.1 with
    | none => exact h c
    | some q =>
      dsimp only
      split
      · rename_i ho
        split
        · exact h c
        · split
          · exact h c
          · rename_i h32
            have h32 : constOf (f.insn q).vals[1]? = some 32 ∧ constOf (f.insn x).vals[1]? = some 32 :=
              ⟨Classical.byContradiction fun e => h32 (.inl e), Classical.byContradiction fun e => h32 (.inr e)⟩
            split
            · rename_i hv
              intro hc
              rcases List.mem_append.1 hc with hc | hc
              · exact h c hc
              · rw [List.mem_singleton] at hc
                subst hc
                obtain ⟨a, ha, hqa⟩ := hp q hs
                obtain ⟨b, hb, hxb⟩ := hx
                match hq : (f.insn q).vals[0]?, hv.1 with
                | some (.insn y), _ => exact ⟨q, a, b, y, ha, hb, hqa, hxb, ho.1, ho.2, hq, hv.2, h32.1, h32.2⟩
            · exact h c
      · exact h c

theorem find_found {rs : List Nat} {f : Fn} : ∀ c ∈ find rs f, Found rs f c := by
  refine look_fold rs f _ _ ?_ (by simp) (by simp)
  intro x hx
  rw [List.mem_flatMap] at hx
  exact hx

theorem look_sub (f : Fn) : ∀ (l : List Nat) (s : Option Nat × List Nat), ∃ l', (l.foldl (look f) s).2 = s.2 ++ l' ∧ l'.Sublist l
  | [], s => ⟨[], by simp, .slnil⟩
  | x :: l, s => by
    rw [List.foldl_cons]
    obtain ⟨l', h1, h2⟩ := look_sub f l (look f s x)
    have : (look f s x).2 = s.2 ∨ (look f s x).2 = s.2 ++ [x] := by
      unfold look
      cases s.1 with
      | none => exact .inl rfl
      | some q =>
        dsimp only
        split
        · split
          · exact .inl rfl
          · split
            · exact .inl rfl
            · split
              · exact .inr rfl
              · exact .inl rfl
        · exact .inl rfl
    rcases this with e | e
    · exact ⟨l', by rw [h1, e], h2.cons x⟩
    · exact ⟨x :: l', by rw [h1, e]; simp, h2.cons₂ x⟩

theorem find_sub (rs : List Nat) (f : Fn) : (find rs f).Sublist (rs.flatMap f.body) := by
  obtain ⟨l', h1, h2⟩ := look_sub f (rs.flatMap f.body) (none, [])
  unfold find
  rw [h1]
  exact h2

/-! ## One pair -/

/-- What the functions must satisfy. -/
structure Good (f : Fn) : Prop where
  ok : Ok f
  ssa : Ssa f
  ord : Ordered f
  last : EndsLast f

/-- The pair, with its blocks. -/
structure Two (f : Fn) (p a c b y : Nat) : Prop where
  good : Good f
  ra : Reach f a
  rb : Reach f b
  pm : p ∈ f.body a
  cm : c ∈ f.body b
  pop : (f.insn p).op = .lsh
  cop : (f.insn c).op = .rsh
  pv : ∃ k1 k2, (f.insn p).vals = [.insn y, .const .plain 32 k1 k2]
  cv : ∃ k1 k2, (f.insn c).vals = [.insn p, .const .plain 32 k1 k2]
  wid : (f.insn p).aluOp = (f.insn c).aluOp

variable {W : World} {f g : Fn} {p a c b y : Nat}

theorem Two.blk (T : Two f p a c b y) {d z : Nat} (hz : z ∈ f.body d) : d ∈ f.allBbs := Classical.byContradiction fun hn => by
  rw [T.good.ok.only d hn] at hz; cases hz

theorem Two.comp (T : Two f p a c b y) : Comp f p a :=
  ⟨T.good.ok, T.good.ssa, T.good.ord, T.good.last, T.blk T.pm, T.pm, by rw [T.pop]; rfl⟩

theorem Two.pc (T : Two f p a c b y) : p ≠ c := by
  rintro rfl
  have := T.pop
  rw [T.cop] at this; cases this

theorem refs_two {i : Insn} {u z : Nat} {q : Val} (ho : i.op = .lsh ∨ i.op = .rsh) (hv : i.vals = [.insn u, q]) (hq : ∀ w, q ≠ .insn w) :
    refs i z = if z = u then 1 else 0 := by
  unfold refs
  have h1 : ¬ i.op = .phi := by rcases ho with h | h <;> rw [h] <;> simp
  have h2 : ¬ ((i.op = .loadraw ∨ i.op = .storeraw) ∧ i.addr = .insn z) := by rcases ho with h | h <;> rw [h] <;> simp
  rw [if_neg h1, if_neg h2, hv]
  by_cases e : z = u
  · subst e
    simp [List.count_cons, hq]
  · have : ¬ u = z := fun h => e h.symm
    simp [List.count_cons, hq, e, this]

theorem Two.refsP (T : Two f p a c b y) (z : Nat) : refs (f.insn p) z = if z = y then 1 else 0 := by
  obtain ⟨k1, k2, h⟩ := T.pv
  exact refs_two (.inl T.pop) h (by simp)

theorem Two.refsC (T : Two f p a c b y) (z : Nat) : refs (f.insn c) z = if z = p then 1 else 0 := by
  obtain ⟨k1, k2, h⟩ := T.cv
  exact refs_two (.inr T.cop) h (by simp)

theorem Two.yp (T : Two f p a c b y) : y ≠ p := by
  rintro rfl
  obtain ⟨l, r, e⟩ := List.append_of_mem T.pm
  have := T.good.ord a T.ra l y r e (by rw [T.pop]; simp) y (by simp)
  rw [T.refsP, if_pos rfl] at this
  cases this

theorem Two.yLive (T : Two f p a c b y) : Live f y :=
  T.good.ok.tidy.closed p y (.inr (.inr ⟨a, T.blk T.pm, T.pm⟩)) (by rw [T.refsP, if_pos rfl]; omega)

/-- The function in which the right shift has become an assignment. -/
def changed (f : Fn) (p c y : Nat) : Fn :=
  { addUser { removeUser f (.insn p) c with insn := upd f.insn c (setPtr (f.insn c) (.insn y) (.val 0)) } (.insn y) c with
    insn := upd f.insn c (toAssign (setPtr (f.insn c) (.insn y) (.val 0))) }

theorem upd_upd {α : Type} (s : Nat → α) (c : Nat) (x y : α) : upd (upd s c x) c y = upd s c y := by
  funext z
  unfold upd
  split <;> rfl

theorem Two.one (T : Two f p a c b y) : compactOne f c = erase (changed f p c y) p := by
  obtain ⟨k1, k2, hc⟩ := T.cv
  obtain ⟨k3, k4, hp⟩ := T.pv
  unfold compactOne
  rw [hc]
  simp only [List.getElem?_cons_zero]
  rw [hp]
  simp only [List.getElem?_cons_zero]
  unfold changeValue
  simp only [getPtr, hc, List.getElem?_cons_zero]
  unfold changed
  have h1 := addUser_same { removeUser f (.insn p) c with insn := upd (removeUser f (.insn p) c).insn c (setPtr ((removeUser f (.insn p) c).insn c) (.insn y) (.val 0)) } (.insn y) c
  have h0 := removeUser_same f (.insn p) c
  rw [h1.insn]
  simp only [h0.insn, upd_same, upd_upd]

theorem Two.insnC (T : Two f p a c b y) : (changed f p c y).insn c = { f.insn c with op := .assign, vrType := .t32, aluOp := .w32, vals := [.insn y] } := by
  obtain ⟨k1, k2, hc⟩ := T.cv
  unfold changed toAssign setPtr
  simp only [upd_same, hc, List.set_cons_zero, List.take_succ_cons, List.take_zero]

theorem changed_insn {z : Nat} (hz : z ≠ c) : (changed f p c y).insn z = f.insn z := upd_ne _ _ hz

theorem changed_body : (changed f p c y).body = f.body ∧ (changed f p c y).allBbs = f.allBbs ∧ (changed f p c y).entry = f.entry ∧
    (changed f p c y).succs = f.succs ∧ (changed f p c y).parent = f.parent ∧ (changed f p c y).sp = f.sp ∧ (changed f p c y).args = f.args ∧
    (changed f p c y).next = f.next := by
  have h1 := addUser_same { removeUser f (.insn p) c with insn := upd f.insn c (setPtr (f.insn c) (.insn y) (.val 0)) } (.insn y) c
  have h0 := removeUser_same f (.insn p) c
  unfold changed
  exact ⟨h1.body.trans h0.body, h1.allBbs.trans h0.allBbs, h1.entry.trans h0.entry, h1.succs.trans h0.succs, h1.parent.trans h0.parent,
    h1.sp.trans h0.sp, h1.args.trans h0.args, h1.next.trans h0.next⟩

theorem changed_users (z u : Nat) : ((changed f p c y).users z).count u =
    (f.users z).count u - (if p = z ∧ u = c then 1 else 0) + if y = z ∧ u = c then 1 else 0 := by
  show ((addUser { removeUser f (.insn p) c with insn := upd f.insn c (setPtr (f.insn c) (.insn y) (.val 0)) } (.insn y) c).users z).count u = _
  rw [addUser_count]
  change ((removeUser f (.insn p) c).users z).count u + _ = _
  rw [removeUser_count]
  simp only [Val.insn.injEq]

theorem Two.patched (_ : Two f p a c b y) : Patched f c (changed f p c y) := by
  obtain ⟨h1, h2, h3, h4, h5, h6, h7, h8⟩ := @changed_body f p c y
  exact ⟨fun z hz => changed_insn hz, h8, h5, h1, h2, h6, h7⟩

theorem Two.refsNew (T : Two f p a c b y) (z : Nat) : refs ((changed f p c y).insn c) z = if z = y then 1 else 0 := by
  rw [T.insnC]
  unfold refs
  dsimp only
  rw [if_neg (by simp), if_neg (by simp)]
  by_cases e : z = y
  · subst e; simp
  · have : ¬ y = z := fun h => e h.symm
    simp [List.count_cons, e, this]

theorem Two.ok (T : Two f p a c b y) : Ok (changed f p c y) := by
  obtain ⟨h1, h2, h3, h4, h5, h6, h7, h8⟩ := @changed_body f p c y
  have hcl : Live f c := .inr (.inr ⟨b, T.blk T.cm, T.cm⟩)
  refine ⟨T.patched.tidy T.good.ok.tidy ?_, ?_, ?_, ?_⟩
  · intro _ z hz
    rw [T.refsNew] at hz
    split at hz
    · rename_i e; rw [e]; exact T.yLive
    · omega
  · intro z hz
    rw [T.patched.live] at hz
    have hu := T.good.ok.users z hz
    refine ⟨fun u hul => ?_, fun u hum => ?_⟩
    · rw [T.patched.live] at hul
      obtain ⟨u1, u2⟩ := hu.1 u hul
      rw [← List.count_pos_iff, changed_users]
      rw [← List.count_pos_iff] at u2
      by_cases e : u = c
      · subst e
        rw [T.refsNew]
        rw [T.refsC] at u1 u2
        by_cases e1 : z = y
        · have e2 : ¬ y = p := T.yp
          subst e1
          rw [if_neg e2] at u1
          simp; omega
        · by_cases e2 : z = p
          · subst e2
            rw [if_pos rfl] at u1
            have e3 : ¬ y = z := T.yp
            simp [e1, e3]; omega
          · rw [if_neg e2] at u1
            have e3 : ¬ y = z := fun h => e1 h.symm
            simp [e1, e3]; omega
      · rw [changed_insn e]
        simp only [e, and_false, if_false]
        omega
    · rw [T.patched.live]
      by_cases e : u = c
      · subst e; exact hcl
      · rw [← List.count_pos_iff, changed_users] at hum
        simp only [e, and_false, if_false] at hum
        exact hu.2 u (List.count_pos_iff.1 (by omega))
  · have key : ∀ z, ((changed f p c y).insn z).op = .phi ↔ (f.insn z).op = .phi := by
      intro z
      by_cases e : z = c
      · subst e; rw [T.insnC, T.cop]; simp
      · rw [changed_insn e]
    intro d z hz
    have hcode : codeOf (changed f p c y) d = codeOf f d := by
      unfold codeOf
      rw [h1]
      congr 1
      funext z
      have := key z
      by_cases e : (f.insn z).op = .phi
      · rw [e, this.2 e]
      · rw [beq_false_of_ne e, beq_false_of_ne (fun h => e (this.1 h))]
    rw [hcode] at hz
    intro e
    exact T.good.ok.phis d z hz ((key z).1 e)
  · rw [h1, h2]; exact T.good.ok.only

/-! ## Meaning -/

theorem shift_pair (w : Bool) (x : BitVec 64) : Bpf.alu w .rsh (Bpf.alu w .lsh x 32) 32 = Flat.truncBytes 4 x := by
  cases w with
  | true =>
    apply BitVec.eq_of_getLsbD_eq
    intro i hi
    have : (32#64).toNat = 32 := rfl
    by_cases h : i < 32
    · simp [Bpf.alu, Bpf.aluW, Flat.truncBytes, this, h]
      have a1 : 32 + i < 64 := by omega
      have a2 : ¬ 32 + i < 32 := by omega
      simp [a1, a2, hi]
    · simp [Bpf.alu, Bpf.aluW, Flat.truncBytes, this, h]
      omega
  | false =>
    apply BitVec.eq_of_getLsbD_eq
    intro i hi
    simp [Bpf.alu, Bpf.aluW, Flat.truncBytes]

theorem Two.exec (T : Two f p a c b y) {σ τ : St} (hp : exec W p (f.insn p) σ = some σ) (hc : exec W c (f.insn c) σ = some τ) :
    exec W c ((changed f p c y).insn c) σ = some τ := by
  obtain ⟨k1, k2, hv⟩ := T.cv
  obtain ⟨k3, k4, hv'⟩ := T.pv
  obtain ⟨v0, v1, o, w, u, z, h1, h2, h3, h4, h5, h6⟩ := exec_bin (by rw [T.cop]; rfl) hc
  obtain ⟨v0', v1', o', w', u', z', h1', h2', h3', h4', h5', h6'⟩ := exec_bin (by rw [T.pop]; rfl) hp
  rw [hv] at h1
  rw [hv'] at h1'
  cases h1
  cases h1'
  rw [T.cop] at h2
  rw [T.pop] at h2'
  cases h2
  cases h2'
  cases h4
  cases h5
  cases h4'
  cases h5'
  rw [T.wid, h3] at h3'
  cases h3'
  have hval : σ.env p = Bpf.alu w .lsh (σ.env y) 32 := by
    have := congrArg (fun s => St.env s p) h6'
    simpa [St.set] using this
  rw [T.insnC, h6]
  dsimp only [IR.exec]
  simp only [eval, Option.bind_eq_bind, Option.bind_some, if_true]
  rw [hval, shift_pair]

theorem Two.skips (T : Two f p a c b y) : Skips W f (changed f p c y) (fun _ => false) (CompRel W f p a) := by
  obtain ⟨h1, h2, h3, h4, h5, h6, h7, h8⟩ := @changed_body f p c y
  refine T.comp.skips h1 h3 h4 fun d z hz => ?_
  by_cases e : z = c
  · subst e
    refine .inr ⟨by rw [T.refsC, if_pos rfl]; omega, by rw [T.cop]; rfl, by rw [T.insnC]; rfl, fun σ τ => T.exec⟩
  · exact .inl (changed_insn e)

theorem erase_keeps {f g : Fn} {x : Nat} (hf : Ok f) (hx : InBody f x) (h : erase f x = .ok g) (hb : (f.insn x).op.binAlu = true)
    (σ : St) : Preserves W f g σ ∧ KeepsValues W f g σ := by
  have hs : straight (f.insn x).op = true := by
    generalize (f.insn x).op = o at hb
    cases o <;> first | rfl | (cases hb; done)
  have hne : ∀ o : Op, o.binAlu = false → (f.insn x).op ≠ o := fun o ho e => by rw [e, ho] at hb; cases hb
  have h1 := hne .store rfl
  have h2 := hne .storeraw rfl
  have h3 := hne .call rfl
  refine ⟨erase_preserves hf hx h hs h1 h2 h3 σ, ?_⟩
  obtain ⟨_, hsm, _⟩ := erase_spec h
  have S : Skips W f g (fun y => decide (y = x)) (fun _ _ => Agree (fun y => y ≠ x)) := by
    refine skips_agree (erase_filter hf hx h) hsm.entry hsm.succs hf.phis ?_ ?_
    · intro b u hu hd
      have hne : u ≠ x := by simpa using hd
      refine ⟨by rw [hsm.insn], reads_of_refs fun y hy => ?_⟩
      have : y = x := Classical.not_not.1 hy
      rw [this]; exact erase_unused hf hx h hu hne
    · intro b u hu hd
      have hux : u = x := by simpa using hd
      subst hux
      refine ⟨hs, fun _ hn => hn rfl, fun σ τ _ he => ?_⟩
      obtain ⟨e1, e2, e3⟩ := exec_pure he h1 h2 h3
      exact ⟨fun y hy => exec_env he hy, fun y _ => by rw [e1], e2, e3⟩
  refine Skips.keeps S (fun _ _ σ σ' hr => ?_) σ ⟨fun _ _ => rfl, fun _ _ => rfl, rfl, rfl⟩
  have hl : ∀ y, Live g y → y ≠ x := fun y hy => ((erase_live hf.tidy hx h).1 hy).2
  exact ⟨fun y hy => hr.env y (hl y hy), fun y hy => hr.var y (hl y hy), hr.mem, hr.trace⟩

/-! ## The walks stay -/

/-- The jumps are the same. -/
structure SameJumps (f g : Fn) (D : Nat → Bool) : Prop where
  body : ∀ b, g.body b = (f.body b).filter (fun x => !D x)
  entry : g.entry = f.entry
  succs : g.succs = f.succs
  drop : ∀ b, ∀ x ∈ f.body b, D x = true → straight (f.insn x).op = true
  keep : ∀ b, ∀ x ∈ f.body b, D x = false → g.insn x = f.insn x ∨ (straight (f.insn x).op = true ∧ straight (g.insn x).op = true)

theorem SameJumps.edge {D : Nat → Bool} (S : SameJumps f g D) {d e : Nat} : Edge g d e ↔ Edge f d e := by
  have ns : ∀ {o : Op}, straight o = true → o ≠ .ja ∧ ¬ o.condJmp = true := fun h => by
    simp only [straight, Bool.not_eq_true', Bool.or_eq_false_iff, decide_eq_false_iff_not] at h
    exact ⟨h.1.1.1, by simp [h.1.1.2]⟩
  constructor
  · intro h
    have mem : ∀ z, z ∈ g.body d → ¬ straight (g.insn z).op = true → z ∈ f.body d ∧ g.insn z = f.insn z := fun z hz hn => by
      rw [S.body, List.mem_filter] at hz
      rcases S.keep d z hz.1 (by simpa using hz.2) with h | h
      · exact ⟨hz.1, h⟩
      · exact absurd h.2 hn
    cases h with
    | ja z hz h1 h2 =>
      obtain ⟨m1, m2⟩ := mem z hz (fun h => (ns h).1 h1)
      rw [m2] at h1 h2
      exact .ja z m1 h1 h2
    | cond z hz h1 h2 =>
      obtain ⟨m1, m2⟩ := mem z hz (fun h => (ns h).2 h1)
      rw [m2] at h1 h2
      exact .cond z m1 h1 h2
    | fall h => rw [S.succs] at h; exact .fall h
  · intro h
    have mem : ∀ z, z ∈ f.body d → ¬ straight (f.insn z).op = true → z ∈ g.body d ∧ g.insn z = f.insn z := fun z hz hn => by
      have hd : D z = false := by
        cases e : D z with
        | false => rfl
        | true => exact absurd (S.drop d z hz e) hn
      rcases S.keep d z hz hd with h | h
      · exact ⟨by rw [S.body, List.mem_filter]; exact ⟨hz, by simp [hd]⟩, h⟩
      · exact absurd h.1 hn
    cases h with
    | ja z hz h1 h2 =>
      obtain ⟨m1, m2⟩ := mem z hz (fun h => (ns h).1 h1)
      rw [← m2] at h1 h2
      exact .ja z m1 h1 h2
    | cond z hz h1 h2 =>
      obtain ⟨m1, m2⟩ := mem z hz (fun h => (ns h).2 h1)
      rw [← m2] at h1 h2
      exact .cond z m1 h1 h2
    | fall h => exact .fall (by rw [S.succs]; exact h)

theorem SameJumps.walk {D : Nat → Bool} (S : SameJumps f g D) {h : List Nat} : Walk g h ↔ Walk f h := by
  constructor
  · intro h
    induction h with
    | entry => rw [S.entry]; exact .entry
    | step a b h _ he ih => exact .step a b h ih (S.edge.1 he)
  · intro h
    induction h with
    | entry => rw [← S.entry]; exact .entry
    | step a b h _ he ih => exact .step a b h ih (S.edge.2 he)

theorem SameJumps.dom {D : Nat → Bool} (S : SameJumps f g D) {d e : Nat} : Dom g d e ↔ Dom f d e := by
  unfold Dom
  exact forall_congr' fun h => by rw [S.walk]

theorem SameJumps.reach {D : Nat → Bool} (S : SameJumps f g D) {d : Nat} : Reach g d ↔ Reach f d := by
  unfold Reach
  exact exists_congr fun h => by rw [S.walk]

/-! ## After the pair is rewritten -/

structure Done (f : Fn) (p c y : Nat) (g : Fn) : Prop where
  good : Good g
  body : ∀ b, g.body b = (f.body b).filter (fun z => !decide (z = p))
  insn : ∀ z, z ≠ c → g.insn z = f.insn z
  insnC : g.insn c = { f.insn c with op := .assign, vrType := .t32, aluOp := .w32, vals := [.insn y] }
  allBbs : g.allBbs = f.allBbs
  entry : g.entry = f.entry
  args : g.args = f.args
  sp : g.sp = f.sp
  succs : g.succs = f.succs
  parent : g.parent = f.parent
  reach : ∀ d, Reach g d ↔ Reach f d
  unused : ∀ d, ∀ u ∈ f.body d, u ≠ p → u ≠ c → refs (f.insn u) p = 0
  keeps : ∀ W σ, Preserves W f g σ ∧ KeepsValues W f g σ

/-- In a filtered list the order is the same. -/
theorem filter_split {q : Nat → Bool} {z : Nat} : ∀ {l0 l r : List Nat}, l0.filter q = l ++ z :: r → ∃ l' r', l0 = l' ++ z :: r' ∧ r = r'.filter q
  | [], l, r, h => by simp at h
  | x :: l0, l, r, h => by
    by_cases hx : q x = true
    · rw [List.filter_cons_of_pos hx] at h
      cases l with
      | nil =>
        simp only [List.nil_append, List.cons.injEq] at h
        exact ⟨[], l0, by simp [h.1], h.2.symm⟩
      | cons u l =>
        simp only [List.cons_append, List.cons.injEq] at h
        obtain ⟨l', r', h1, h2⟩ := filter_split h.2
        exact ⟨x :: l', r', by rw [h1]; rfl, h2⟩
    · rw [List.filter_cons_of_neg hx] at h
      obtain ⟨l', r', h1, h2⟩ := filter_split h
      exact ⟨x :: l', r', by rw [h1]; rfl, h2⟩

theorem Two.done (T : Two f p a c b y) (h : compactOne f c = .ok g) : Done f p c y g := by
  rw [T.one] at h
  obtain ⟨h1, h2, h3, h4, h5, h6, h7, h8⟩ := @changed_body f p c y
  have hok := T.ok
  have hpc : InBody (changed f p c y) p := ⟨a, by rw [h2]; exact T.blk T.pm, by rw [h1]; exact T.pm⟩
  obtain ⟨_, hs, _⟩ := erase_spec h
  have hins : ∀ z, z ≠ c → g.insn z = f.insn z := fun z hz => by rw [hs.insn]; exact changed_insn (p := p) (y := y) hz
  have hinsC : g.insn c = { f.insn c with op := .assign, vrType := .t32, aluOp := .w32, vals := [.insn y] } := by
    rw [hs.insn]; exact T.insnC
  have hbody : ∀ d, g.body d = (f.body d).filter (fun z => !decide (z = p)) := fun d => by rw [erase_filter hok hpc h d, h1]
  have hpar : g.parent = f.parent := hs.parent.trans h5
  have hall : g.allBbs = f.allBbs := hs.allBbs.trans h2
  have J : SameJumps f g (fun z => decide (z = p)) := by
    refine ⟨hbody, hs.entry.trans h3, hs.succs.trans h4, ?_, ?_⟩
    · intro d z _ e
      have : z = p := by simpa using e
      rw [this, T.pop]; rfl
    · intro d z _ e
      by_cases ec : z = c
      · subst ec; exact .inr ⟨by rw [T.cop]; rfl, by rw [hinsC]; rfl⟩
      · exact .inl (hins z ec)
  have hmem : ∀ d z, z ∈ g.body d → z ∈ f.body d ∧ z ≠ p := fun d z hz => by
    rw [hbody, List.mem_filter] at hz
    exact ⟨hz.1, by simpa using hz.2⟩
  have hib : ∀ z, InBody g z → InBody f z ∧ z ≠ p := by
    rintro z ⟨d, hd, hm⟩
    obtain ⟨m1, m2⟩ := hmem d z hm
    exact ⟨⟨d, by rw [← hall]; exact hd, m1⟩, m2⟩
  have hphi : ∀ z, (g.insn z).op = .phi → z ≠ c ∧ (f.insn z).op = .phi := fun z hz => by
    have : z ≠ c := by rintro rfl; rw [hinsC] at hz; cases hz
    exact ⟨this, by rw [← hins z this]; exact hz⟩
  have hrefC : ∀ z, refs (g.insn c) z = if z = y then 1 else 0 := fun z => by
    have : g.insn c = (changed f p c y).insn c := by rw [hs.insn]
    rw [this]; exact T.refsNew z
  have hpi : InBody f p := ⟨a, T.blk T.pm, T.pm⟩
  have hpp : f.parent p = a := T.good.ok.tidy.parent a (T.blk T.pm) p T.pm
  have hdy : ∀ z, z = y → InBody f z → Dom f (f.parent z) a := fun z e hz => by
    subst e
    exact T.good.ssa.uses a p T.pm (by rw [T.pop]; simp) z hz (by rw [T.refsP, if_pos rfl]; omega)
  have hdp : Dom f a b := by
    have := T.good.ssa.uses b c T.cm (by rw [T.cop]; simp) p hpi (by rw [T.refsC, if_pos rfl]; omega)
    rw [hpp] at this; exact this
  have ssa : Ssa g := by
    refine ⟨?_, ?_, ?_, ?_, ?_⟩
    · intro d z hz hp u hu hr
      obtain ⟨m1, m2⟩ := hmem d z hz
      obtain ⟨i1, i2⟩ := hib u hu
      rw [J.dom, hpar]
      by_cases e : z = c
      · subst e
        rw [hrefC] at hr
        have hd : d = b := (T.good.ok.tidy.parent d (T.blk m1) z m1).symm.trans (T.good.ok.tidy.parent b (T.blk T.cm) z T.cm)
        rw [hd]
        split at hr
        · rename_i e'
          exact (hdy u e' i1).trans hdp
        · omega
      · rw [hins z e] at hp hr
        exact T.good.ssa.uses d z m1 hp u i1 hr
    · intro d z hz hp q u hm hu
      obtain ⟨m1, m2⟩ := hmem d z hz
      obtain ⟨i1, i2⟩ := hib u hu
      obtain ⟨e, hp'⟩ := hphi z hp
      rw [J.dom, hpar]
      rw [hins z e] at hm
      exact T.good.ssa.phiUses d z m1 hp' q u hm i1
    · intro d z hz hp q k hw he
      obtain ⟨m1, m2⟩ := hmem d z hz
      obtain ⟨e, hp'⟩ := hphi z hp
      rw [hins z e]
      exact T.good.ssa.phiAll d z m1 hp' q k (J.walk.1 hw) (J.edge.1 he)
    · intro z hz hp
      rw [J.entry] at hz
      exact T.good.ssa.entry z (hmem _ z hz).1 (hphi z hp).2
    · intro d z hz ho u hh
      obtain ⟨m1, m2⟩ := hmem d z hz
      by_cases e : z = c
      · subst e; rw [hinsC] at ho; rcases ho with ho | ho <;> cases ho
      · rw [hins z e] at ho hh
        have := T.good.ssa.vars d z m1 ho u hh
        by_cases eu : u = c
        · rw [eu, T.cop] at this; cases this
        · rw [hins u eu]; exact this
  have nodup : ∀ d, (f.body d).Nodup := fun d => by
    by_cases hd : d ∈ f.allBbs
    · exact T.good.ok.tidy.nodup d hd
    · rw [T.good.ok.only d hd]; exact List.nodup_nil
  have ord : Ordered g := by
    intro d hd l z r e hp u hu
    rw [J.reach] at hd
    rw [hbody] at e
    obtain ⟨l', r', e1, e2⟩ := filter_split e
    have hu' : u ∈ z :: r' := by
      rcases List.mem_cons.1 hu with h | h
      · simp [h]
      · rw [e2, List.mem_filter] at h; simp [h.1]
    have huf : u ∈ f.body d := by rw [e1]; simp only [List.mem_append]; exact .inr hu'
    by_cases ez : z = c
    · subst ez
      rw [hrefC]
      rw [if_neg]
      rintro rfl
      have hz : z ∈ f.body d := by rw [e1]; simp
      have hdb : d = b := (T.good.ok.tidy.parent d (T.blk hz) z hz).symm.trans (T.good.ok.tidy.parent b (T.blk T.cm) z T.cm)
      subst hdb
      have hui : InBody f u := ⟨d, T.blk huf, huf⟩
      have hup : f.parent u = d := T.good.ok.tidy.parent d (T.blk huf) u huf
      have hda : Dom f d a := by rw [← hup]; exact hdy u rfl hui
      by_cases had : a = d
      · subst had
        -- `p` is in front of `z`, `u` in front of `p`
        have hpl : p ∈ l' := by
          have := T.pm
          rw [e1, List.mem_append] at this
          rcases this with h | h
          · exact h
          · have := T.good.ord a hd l' z r' e1 (by rw [T.cop]; simp) p h
            rw [T.refsC, if_pos rfl] at this; cases this
        obtain ⟨s1, s2, e3⟩ := List.append_of_mem hpl
        have := T.good.ord a hd s1 p (s2 ++ z :: r') (by rw [e1, e3]; simp) (by rw [T.pop]; simp) u (by
          simp only [List.mem_cons, List.mem_append]
          exact .inr (.inr (List.mem_cons.1 hu')))
        rw [T.refsP, if_pos rfl] at this; cases this
      · obtain ⟨k, hk⟩ := hd
        obtain ⟨m', w1, w2⟩ := avoid (a := a) (b := d) (fun e => had e.symm) (fun m hm => by
          rcases List.mem_cons.1 (hda m hm) with h | h
          · exact absurd h.symm had
          · exact h) _ k (Nat.le_refl _) hk
        exact w2 (hdp m' w1)
    · rw [hins z ez] at hp ⊢
      exact T.good.ord d hd l' z r' e1 hp u hu'
  have last : EndsLast g := by
    intro d l z r e he
    rw [hbody] at e
    obtain ⟨l', r', e1, e2⟩ := filter_split e
    by_cases ez : z = c
    · subst ez; rw [hinsC] at he; cases he
    · rw [hins z ez] at he
      rw [e2, T.good.last d l' z r' e1 he]; rfl
  refine ⟨⟨erase_ok hok hpc h, ssa, ord, last⟩, hbody, hins, hinsC, hall, J.entry, hs.args.trans h7, hs.sp.trans h6, J.succs, hpar,
    fun d => J.reach, ?_, fun W σ => ?_⟩
  · intro d u hu e1 e2
    have := erase_unused hok hpc h (b := d) (u := u) (by rw [h1]; exact hu) e1
    rw [changed_insn e2] at this; exact this
  · have S := T.skips (W := W)
    have p1 : Preserves W f (changed f p c y) σ := S.preserves (fun _ _ σ σ' hr => ⟨by rw [hr.1], by rw [hr.1]⟩) σ (T.comp.start σ)
    have k1 : KeepsValues W f (changed f p c y) σ := Skips.keeps S (fun _ _ σ σ' hr => by
      rw [hr.1]; exact ⟨fun _ _ => rfl, fun _ _ => rfl, rfl, rfl⟩) σ (T.comp.start σ)
    have hop : ((changed f p c y).insn p).op.binAlu = true := by rw [changed_insn T.pc, T.pop]; rfl
    obtain ⟨p2, k2⟩ := erase_keeps (W := W) hok hpc h hop σ
    exact ⟨p1.trans p2, KeepsValues.trans (fun x hx => ((erase_live hok.tidy hpc h).1 hx).1) k1 k2⟩

theorem Done.rest {p' a' c' b' y' : Nat} (T : Two f p a c b y) (D : Done f p c y g) (T' : Two f p' a' c' b' y') (hne : c' ≠ c) :
    Two g p' a' c' b' y' := by
  have hc'p : c' ≠ p := by
    rintro rfl
    have := T.pop
    rw [T'.cop] at this; cases this
  have hp'c : p' ≠ c := by
    rintro rfl
    have := T.cop
    rw [T'.pop] at this; cases this
  have hpp : p' ≠ p := by
    rintro rfl
    have := D.unused b' c' T'.cm hc'p hne
    rw [T'.refsC, if_pos rfl] at this; cases this
  have hm : ∀ d z, z ∈ f.body d → z ≠ p → z ∈ g.body d := fun d z hz e => by
    rw [D.body, List.mem_filter]; exact ⟨hz, by simpa using e⟩
  refine ⟨D.good, (D.reach a').2 T'.ra, (D.reach b').2 T'.rb, hm _ _ T'.pm hpp, hm _ _ T'.cm hc'p, ?_, ?_, ?_, ?_, ?_⟩
  · rw [D.insn p' hp'c]; exact T'.pop
  · rw [D.insn c' hne]; exact T'.cop
  · rw [D.insn p' hp'c]; exact T'.pv
  · rw [D.insn c' hne]; exact T'.cv
  · rw [D.insn p' hp'c, D.insn c' hne]; exact T'.wid

/-- The outcome of the second loop. -/
structure All (f : Fn) (l : List Nat) (g : Fn) : Prop where
  good : Good g
  /-- the left shifts are gone, nothing else -/
  body : ∀ b, g.body b = (f.body b).filter (fun z => !decide (∃ c ∈ l, (f.insn c).vals[0]? = some (.insn z)))
  insn : ∀ z, z ∉ l → g.insn z = f.insn z
  insnC : ∀ c ∈ l, ∃ p y, (f.insn c).vals[0]? = some (.insn p) ∧ (f.insn p).vals[0]? = some (.insn y) ∧
    g.insn c = { f.insn c with op := .assign, vrType := .t32, aluOp := .w32, vals := [.insn y] }
  allBbs : g.allBbs = f.allBbs
  entry : g.entry = f.entry
  succs : g.succs = f.succs
  keeps : ∀ W σ, Preserves W f g σ ∧ KeepsValues W f g σ

theorem Done.live (D : Done f p c y g) {x : Nat} : Live g x → Live f x := by
  unfold Live InBody
  rw [D.sp, D.args, D.allBbs]
  rintro (h | h | ⟨d, hd, hm⟩)
  · exact .inl h
  · exact .inr (.inl h)
  · rw [D.body, List.mem_filter] at hm
    exact .inr (.inr ⟨d, hd, hm.1⟩)

theorem compactAll_ok : ∀ (l : List Nat) (f : Fn), l.Nodup → Good f → (∀ c ∈ l, ∃ p a b y, Two f p a c b y) →
    (compactAll l f = .err ∧ ∃ c ∈ l, ∃ p, (f.insn c).vals[0]? = some (.insn p) ∧ ∃ u, Live f u ∧ u ≠ c ∧ 0 < refs (f.insn u) p) ∨
    ∃ g, compactAll l f = .ok g ∧ All f l g ∧ ∀ x, Live g x → Live f x
  | [], f, _, hg, _ => .inr ⟨f, rfl, ⟨hg, fun b => by simp; exact (List.filter_eq_self.2 (fun _ _ => rfl)).symm, fun _ _ => rfl, by simp, rfl, rfl, rfl,
      fun W σ => ⟨Preserves.refl W f σ, KeepsValues.refl W f σ⟩⟩, fun _ h => h⟩
  | c :: l, f, hn, hg, hl => by
    obtain ⟨p, a, b, y, T⟩ := hl c (by simp)
    obtain ⟨k1, k2, hcv⟩ := T.cv
    have hcv0 : (f.insn c).vals[0]? = some (.insn p) := by rw [hcv]; rfl
    cases h1 : compactOne f c with
    | crit => rw [T.one] at h1; unfold erase at h1; split at h1 <;> cases h1
    | ub => rw [T.one] at h1; unfold erase at h1; split at h1 <;> cases h1
    | err =>
      refine .inl ⟨by simp only [compactAll, h1], c, by simp, p, hcv0, ?_⟩
      rw [T.one] at h1
      unfold erase at h1
      split at h1
      · rename_i hu
        rw [List.any_eq_true] at hu
        obtain ⟨u, hu, hup⟩ := hu
        have hok := T.ok
        have hpl : Live (changed f p c y) p := by rw [T.patched.live]; exact .inr (.inr ⟨a, T.blk T.pm, T.pm⟩)
        have hul := (hok.users p hpl).2 u hu
        have hur := ((hok.users p hpl).1 u hul).1
        have := List.count_pos_iff.2 hu
        have huc : u ≠ c := by
          rintro rfl
          rw [T.refsNew, if_neg (fun e => T.yp e.symm)] at hur
          omega
        rw [changed_insn huc] at hur
        exact ⟨u, by rw [T.patched.live] at hul; exact hul, huc, by omega⟩
      · cases h1
    | ok g =>
      have D := T.done h1
      rw [List.nodup_cons] at hn
      have hrest : ∀ c' ∈ l, ∃ p' a' b' y', Two f p' a' c' b' y' ∧ Two g p' a' c' b' y' := fun c' hc' => by
        obtain ⟨p', a', b', y', T'⟩ := hl c' (by simp [hc'])
        exact ⟨p', a', b', y', T', D.rest T T' (fun e => hn.1 (by rw [← e]; exact hc'))⟩
      have hnotp : ∀ c' ∈ l, c' ≠ c := fun c' hc' e => hn.1 (by rw [← e]; exact hc')
      simp only [compactAll, h1]
      rcases compactAll_ok l g hn.2 D.good (fun c' hc' => by
        obtain ⟨p', a', b', y', _, T'⟩ := hrest c' hc'
        exact ⟨p', a', b', y', T'⟩) with ⟨e, c', hc', p', h2, u, hu, huc, hur⟩ | ⟨k, e, A, hlk⟩
      · have h3 : (f.insn c').vals[0]? = some (.insn p') := by rw [← D.insn c' (hnotp c' hc')]; exact h2
        by_cases euc : u = c
        · -- the new assignment uses `p'`, so `p` did
          subst euc
          have hy : p' = y := by
            have h4 := D.insnC
            rw [← T.insnC] at h4
            rw [h4, T.refsNew] at hur
            split at hur
            · assumption
            · omega
          obtain ⟨p2, a2, b2, y2, T2, T2'⟩ := hrest c' hc'
          refine .inl ⟨e, c', by simp [hc'], p', h3, p, .inr (.inr ⟨a, T.blk T.pm, T.pm⟩), ?_, ?_⟩
          · rintro rfl
            have := T.pop
            rw [T2.cop] at this; cases this
          · rw [T.refsP, if_pos hy]; omega
        · exact .inl ⟨e, c', by simp [hc'], p', h3, u, D.live hu, huc, by rw [D.insn u euc] at hur; exact hur⟩
      · refine .inr ⟨k, e, ⟨A.good, ?_, ?_, ?_, A.allBbs.trans D.allBbs, A.entry.trans D.entry, A.succs.trans D.succs, fun W σ => ?_⟩,
          fun x hx => D.live (hlk x hx)⟩
        · intro d
          rw [A.body, D.body, List.filter_filter]
          apply List.filter_congr
          intro z hz
          have hstep : (∃ c' ∈ l, (g.insn c').vals[0]? = some (.insn z)) ↔ ∃ c' ∈ l, (f.insn c').vals[0]? = some (.insn z) :=
            exists_congr fun c' => and_congr_right fun hc' => by rw [D.insn c' (hnotp c' hc')]
          have : (∃ c' ∈ c :: l, (f.insn c').vals[0]? = some (.insn z)) ↔ z = p ∨ ∃ c' ∈ l, (f.insn c').vals[0]? = some (.insn z) := by
            simp only [List.mem_cons, exists_eq_or_imp, hcv0, Option.some.injEq, Val.insn.injEq]
            constructor
            · rintro (h | h)
              · exact .inl h.symm
              · exact .inr h
            · rintro (h | h)
              · exact .inl h.symm
              · exact .inr h
          by_cases e1 : z = p <;> by_cases e2 : ∃ c' ∈ l, (f.insn c').vals[0]? = some (.insn z) <;> simp only [this, hstep, e1, e2] <;> simp_all
        · intro z hz
          simp only [List.mem_cons, not_or] at hz
          rw [A.insn z hz.2, D.insn z hz.1]
        · intro c' hc'
          rcases List.mem_cons.1 hc' with rfl | hc'
          · obtain ⟨k3, k4, hpv⟩ := T.pv
            exact ⟨p, y, hcv0, by rw [hpv]; rfl, by rw [A.insn c' hn.1, D.insnC]⟩
          · obtain ⟨p', y', e1, e2, e3⟩ := A.insnC c' hc'
            obtain ⟨p2, a2, b2, y2, T2, T2'⟩ := hrest c' hc'
            rw [D.insn c' (hnotp c' hc')] at e1 e3
            obtain ⟨_, _, hv2⟩ := T2.cv
            rw [hv2] at e1
            cases e1
            have : p' ≠ c := by
              rintro rfl
              have := T.cop
              rw [T2.pop] at this; cases this
            rw [D.insn p' this] at e2
            exact ⟨p', y', by rw [hv2]; rfl, e2, e3⟩
        · obtain ⟨p1, k1⟩ := D.keeps W σ
          obtain ⟨p2, k2⟩ := A.keeps W σ
          exact ⟨p1.trans p2, KeepsValues.trans hlk k1 k2⟩

end Verif.Compact
