import Verif.Compile.Color
/-!
# Machine registers that wait to be read

The lowering writes machine registers only right in front of a call and reads them right behind a call or at the entry.  If nothing is spilled, no virtual register is written in between.
-/
namespace Verif.Fit
open Verif Verif.IR Verif.Edit Verif.Cg Verif.Loc
open Verif.Lower (Ready)
open Verif.Norm (VrPos Reg Op)

/-- Before `x` is executed, `r` holds something that is still to be read: `x` reads it, or `x` is a copy of an argument of a call to a later register. -/
def Awaits (f : Fn) (l : Nat → Nat) (x r : Nat) : Prop := r ∈ reads l (f.insn x) ∨ (1 ≤ r ∧ r < l x ∧ l x < 10)

def Calm (f : Fn) (l : Nat → Nat) (x : Nat) : Prop := ∀ r, r < 10 → ¬ Awaits f l x r

/-- What waits before `y` waits before `x` or is written by `x`, and then `x` writes no virtual register. -/
def Passes (f : Fn) (l : Nat → Nat) (x y : Nat) : Prop := ∀ r, r < 10 → Awaits f l y r →
  (r ∈ writes l x (f.insn x) ∨ Awaits f l x r) ∧ ∀ q ∈ writes l x (f.insn x), q ≤ 10

def Linked (P : Nat → Nat → Prop) : List Nat → Prop
  | [] => True
  | x :: L => (∀ y B, L = y :: B → P x y) ∧ Linked P L

theorem Linked.drop {P : Nat → Nat → Prop} : ∀ {A B : List Nat}, Linked P (A ++ B) → Linked P B
  | [], _, h => h
  | _ :: A, _, h => Linked.drop (A := A) h.2

structure Tame (f : Fn) (R : List Nat) (l : Nat → Nat) : Prop where
  linked : ∀ b ∈ R, Linked (Passes f l) (codeOf f b)
  starts : ∀ b ∈ R, b ≠ f.entry → ∀ y B, codeOf f b = y :: B → Calm f l y
  phis : ∀ c ∈ R, ∀ x ∈ phisOf f c, ∀ b y, (b, Val.insn y) ∈ (f.insn x).phi → 10 ≤ l y

/-- A machine register that is needed waits. -/
theorem needed_awaits {f : Fn} {R : List Nat} {l : Nat → Nat} (hf : Flow f R) (hloop : ∀ b ∈ R, f.entry ∉ f.succs b) (ht : Tame f R l) {r b : Nat} (hr : r < 10) {rest : List Nat}
    (hn : Needed f l r b rest) : b ∈ R → (∃ pre, codeOf f b = pre ++ rest) → ∃ x B, rest = x :: B ∧ Awaits f l x r := by
  induction hn with
  | @read b s rest h => exact fun _ _ => ⟨s, rest, rfl, .inl h⟩
  | @skip b s rest hw hn ih =>
    intro hb ⟨pre, e⟩
    obtain ⟨y, B, e1, h1⟩ := ih hb ⟨pre ++ [s], by rw [e]; simp⟩
    have h2 : Linked (Passes f l) (s :: rest) := by
      have := ht.linked b hb
      rw [e] at this
      exact this.drop
    rcases (h2.1 y B e1 r hr h1).1 with h3 | h3
    · exact absurd h3 hw
    · exact ⟨s, rest, rfl, h3⟩
  | @phi b c x y hc hx ho hq =>
    intro hb _
    have := ht.phis c (hf.succs b hb c hc) x hx b y ho
    omega
  | @edge b c hc _ hn ih =>
    intro hb _
    have hcR := hf.succs b hb c hc
    obtain ⟨y, B, e1, h1⟩ := ih hcR ⟨[], rfl⟩
    exact absurd h1 (ht.starts c hcR (fun e => hloop b hb (e ▸ hc)) y B e1 r hr)

theorem tame_start {f : Fn} {R : List Nat} {l : Nat → Nat} (hf : Flow f R) (hloop : ∀ b ∈ R, f.entry ∉ f.succs b) (ht : Tame f R l) {b : Nat} (hb : b ∈ R) (he : b ≠ f.entry) {r : Nat}
    (hr : r < 10) : ¬ Needed f l r b (codeOf f b) := fun hn => by
  obtain ⟨y, B, e1, h1⟩ := needed_awaits hf hloop ht hr hn hb ⟨[], rfl⟩
  exact ht.starts b hb he y B e1 r hr h1

/-- So no machine register is overwritten, whatever registers the values get. -/
theorem tame_kept {f : Fn} {R : List Nat} {l : Nat → Nat} (hf : Flow f R) (hloop : ∀ b ∈ R, f.entry ∉ f.succs b) (hent : phisOf f f.entry = []) (ht : Tame f R l) (k : Nat → Nat) :
    RegsKept f R l k := by
  refine ⟨fun b hb pre x rest e r hr hn y hy hl _ => ?_, fun b hb r hr hn x hx _ => ?_⟩
  · exfalso
    rw [← phisOf_append f b] at e
    obtain ⟨A, e1, e2⟩ | ⟨A, e1, e2⟩ := List.append_eq_append_iff.1 e
    · have h2 : Linked (Passes f l) (x :: rest) := by
        have := ht.linked b hb
        rw [e2] at this
        exact this.drop
      obtain ⟨z, B, e3, h3⟩ := needed_awaits hf hloop ht hr hn hb ⟨A ++ [x], by rw [e2]; simp⟩
      have := (h2.1 z B e3 r hr h3).2 _ hy
      omega
    · cases A with
      | nil =>
        rw [List.nil_append] at e2
        have h2 : Linked (Passes f l) (x :: rest) := by
          have := ht.linked b hb
          rw [← e2] at this
          exact this
        obtain ⟨z, B, e3, h3⟩ := needed_awaits hf hloop ht hr hn hb ⟨[x], by rw [← e2]; rfl⟩
        have := (h2.1 z B e3 r hr h3).2 _ hy
        omega
      | cons a A =>
        injection e2 with e2 e3
        have : (f.insn x).op = .phi := phisOf_phi (b := b) (by rw [e1, e2]; simp)
        unfold writes at hy
        rw [this] at hy
        cases hy
  · exfalso
    exact tame_start hf hloop ht hb (fun e => by rw [e, hent] at hx; cases hx) hr hn

/-! ## After the lowering -/

/-- What an instruction other than a call reads are places of operands. -/
theorem reads_operand {l : Nat → Nat} {i : Insn} {q : Nat} (hc : i.op ≠ .call) (h : q ∈ reads l i) : ∃ y, q = l y ∧ Val.insn y ∈ operands i := by
  have key : ∀ vs : List Val, q ∈ vs.flatMap (place l) → ∃ y, q = l y ∧ Val.insn y ∈ vs := by
    intro vs hq
    obtain ⟨v, h1, h2⟩ := List.mem_flatMap.1 hq
    cases v with
    | insn y => exact ⟨y, by simpa [place] using h2, h1⟩
    | _ => cases h2
  obtain ⟨op, vals, phi, addr, addrOff, addrKind, aluOp, vrType, bb1, bb2, aux, immKind, imm64⟩ := i
  cases op
  case call => exact absurd rfl hc
  case store =>
    obtain ⟨y, h1, h2⟩ := key _ h
    have := List.mem_of_mem_tail h2
    exact ⟨y, h1, by simp [operands, this]⟩
  case loadraw =>
    obtain ⟨y, h1, h2⟩ := key [addr] (by simpa [reads] using h)
    simp only [List.mem_singleton] at h2
    exact ⟨y, h1, by simp [operands, raw, h2]⟩
  case storeraw =>
    have h' : q ∈ (vals ++ [addr]).flatMap (place l) := by simpa [reads] using h
    obtain ⟨y, h1, h2⟩ := key _ h'
    exact ⟨y, h1, by simpa [operands, raw] using h2⟩
  all_goals
    obtain ⟨y, h1, h2⟩ := key _ h
    exact ⟨y, h1, by simp [operands, h2]⟩

theorem reads_assign {l : Nat → Nat} {v : Val} {q : Nat} : q ∈ reads l (mkAssign v) ↔ q ∈ place l v := by simp [reads, mkAssign]
theorem writes_assign {l : Nat → Nat} {v : Val} {x q : Nat} : q ∈ writes l x (mkAssign v) ↔ q = l x := by simp [writes, mkAssign, Norm.Op.condJmp]

variable {f g : Fn} {R : List Nat} {k rn rg : Nat → Nat} {H N M : Nat → List Nat}

theorem calm_passes {x y : Nat} (h : Calm g k y) : Passes g k x y := fun r hr ha => absurd ha (h r hr)

theorem place_ren (h : Lowd f R g k rn rg H N M) {v : Val} (hv : ∀ y, v = .insn y → Live f y) {r : Nat} (hr : r < 10) : r ∉ place k (renV rn v) := by
  cases v with
  | insn y =>
    have := h.place_big (hv y rfl)
    simp only [renV, place, List.mem_singleton]
    omega
  | _ => simp [renV, place]

theorem args_linked (h : Lowd f R g k rn rg H N M) {y0 : Nat} {T : List Nat} (hT : Linked (Passes g k) (y0 :: T)) : ∀ {vs : List Val} {i : Nat} {ns : List Nat}, ArgsAt g k rn i vs ns →
    i + vs.length ≤ 5 → (∀ y, .insn y ∈ vs → Live f y) → (∀ r, r < 10 → Awaits g k y0 r → 1 ≤ r ∧ r ≤ i + vs.length) →
    Linked (Passes g k) (ns ++ y0 :: T) ∧ ∀ z B, ns ++ y0 :: T = z :: B → ∀ r, r < 10 → Awaits g k z r → 1 ≤ r ∧ r ≤ i
  | [], i, ns, hn, _, _, h0 => by
    cases hn
    refine ⟨hT, fun z B e => ?_⟩
    cases e
    exact h0
  | v :: vs, i, ns, ⟨n, m, e, h1, h2, h3⟩, hl, hv, h0 => by
    subst e
    simp only [List.length_cons] at hl h0
    obtain ⟨k1, k2⟩ := args_linked h hT h3 (by omega) (fun y hy => hv y (List.mem_cons_of_mem _ hy)) (fun r hr ha => by have := h0 r hr ha; omega)
    have hno : ∀ r, r < 10 → r ∉ reads k (g.insn n) := fun r hr => by
      rw [h1, reads_assign]
      exact place_ren h (fun y e => hv y (by rw [e]; simp)) hr
    refine ⟨⟨fun y B e r hr ha => ⟨?_, fun z hz => ?_⟩, k1⟩, fun z B e r hr ha => ?_⟩
    · have := k2 y B e r hr ha
      by_cases e1 : r = i + 1
      · left; rw [h1, writes_assign, h2]; exact e1
      · right; right; rw [h2]; omega
    · rw [h1, writes_assign, h2] at hz
      omega
    · cases e
      rcases ha with ha | ha
      · exact absurd ha (hno r hr)
      · rw [h2] at ha; omega

theorem plain_calm (hr : Ready f R) (h : Lowd f R g k rn rg H N M) {b x : Nat} (hb : b ∈ R) (hx : x ∈ f.body b) (hc : (f.insn x).op ≠ .call) : Calm g k x := by
  have hL : Live f x := .inr (.inr ⟨b, hr.blocks b hb, hx⟩)
  rintro r hr' (ha | ha)
  · rw [(h.plain b hb x hx hc).1] at ha
    obtain ⟨y, e, hy⟩ := reads_operand (i := mapOps (renV rn) (f.insn x)) hc ha
    rw [operands_mapOps] at hy
    obtain ⟨v, hv, ev⟩ := List.mem_map.1 hy
    cases v with
    | insn z =>
      have hz : Live f z := hr.tidy.closed x z hL (refs_pos.2 hv)
      have := h.place_big hz
      cases ev
      omega
    | _ => cases ev
  · rw [h.own x ⟨b, hr.blocks b hb, hx⟩] at ha
    have := Cg.virt_big x
    omega

theorem argRegs_pos {fid : BitVec 32} {q : Nat} (h : q ∈ argRegs fid) : 1 ≤ q ∧ q ≤ Lift.arity fid := by
  unfold argRegs at h
  obtain ⟨i, hi, e⟩ := List.mem_take_iff_getElem.1 h
  simp only [List.length_cons, List.length_nil] at hi
  have : i < 5 := by omega
  have e2 : q = i + 1 := by
    rw [← e]
    match i, this with
    | 0, _ => rfl
    | 1, _ => rfl
    | 2, _ => rfl
    | 3, _ => rfl
    | 4, _ => rfl
  omega

theorem ex_linked (hr : Ready f R) (h : Lowd f R g k rn rg H N M) {b : Nat} (hb : b ∈ R) : ∀ (L : List Nat), (∀ x ∈ L, x ∈ f.body b) →
    Linked (Passes g k) (ex N M L) ∧ ∀ z B, ex N M L = z :: B → Calm g k z
  | [], _ => ⟨trivial, fun z B e => by cases e⟩
  | x :: L, hL => by
    have hx := hL x List.mem_cons_self
    obtain ⟨k1, k2⟩ := ex_linked hr h hb L (fun y hy => hL y (List.mem_cons_of_mem _ hy))
    rw [ex_cons]
    by_cases hc : (f.insn x).op = .call
    · obtain ⟨h1, h2, h3⟩ := h.call b hb x hx hc
      obtain ⟨a1, a2⟩ := hr.arity b hb x hx hc
      have hlive : Live f x := .inr (.inr ⟨b, hr.blocks b hb, hx⟩)
      have hw : ∀ q, q ∈ writes k x (g.insn x) ↔ q ≤ 5 := fun q => by
        rw [h1]; unfold writes; dsimp only; rw [hc]; simp; omega
      have hT : Linked (Passes g k) (x :: (M x ++ ex N M L)) := by
        rcases h3 with ⟨h3, -⟩ | ⟨h3, h4⟩
        · rw [h3, List.nil_append]
          exact ⟨fun y B e => calm_passes (k2 y B e), k1⟩
        · rw [h3, List.singleton_append]
          refine ⟨fun y B e r hr' ha => ?_, fun y B e => calm_passes (k2 y B e), k1⟩
          injection e with e5 e6
          subst e5
          refine ⟨.inl ((hw r).2 ?_), fun z hz => by have := (hw _).1 hz; omega⟩
          rcases ha with ha | ha
          · rw [h4, reads_assign, place, List.mem_singleton, h.regs 0 (by omega)] at ha
            omega
          · by_cases esp : x = f.sp
            · exact absurd esp (hr.tidy.fixed b (hr.blocks b hb) x hx).1
            · rw [h.place x hlive esp] at ha
              have := Cg.virt_big (rn x)
              omega
      obtain ⟨j1, j2⟩ := args_linked h hT h2 (by omega) (fun y hy => hr.tidy.closed x y hlive (refs_pos.2 (by unfold operands; exact List.mem_append_left _ (List.mem_append_left _ hy)))) (fun r hr' ha => by
        rcases ha with ha | ha
        · rw [h1] at ha
          unfold reads at ha
          dsimp only at ha
          rw [hc] at ha
          have := argRegs_pos ha
          omega
        · rw [h.own x ⟨b, hr.blocks b hb, hx⟩] at ha
          have := Cg.virt_big x
          omega)
      exact ⟨j1, fun z B e r hr' ha => by have := j2 z B e r hr' ha; omega⟩
    · obtain ⟨-, h1, h2, -⟩ := h.plain b hb x hx hc
      rw [h1, h2, List.nil_append, List.nil_append]
      refine ⟨⟨fun y B e => calm_passes (k2 y B e), k1⟩, fun z B e => ?_⟩
      cases e
      exact plain_calm hr h hb hx hc

/-- After the lowering machine registers wait nowhere else, if at most one argument is used. -/
theorem lowd_tame (hr : Ready f R) (h : Lowd f R g k rn rg H N M) (hH : (H f.entry).length ≤ 1) : Tame g R k := by
  have inc : ∀ {b x}, x ∈ codeOf f b → x ∈ f.body b := fun hx => by rw [← phisOf_append f _]; exact List.mem_append_right _ hx
  have inp : ∀ {b x}, x ∈ phisOf f b → x ∈ f.body b := fun hx => by rw [← phisOf_append f _]; exact List.mem_append_left _ hx
  refine ⟨fun b hb => ?_, fun b hb he y B e => ?_, fun c hc x hx b y ho => ?_⟩
  · obtain ⟨k1, k2⟩ := ex_linked hr h hb (codeOf f b) (fun x => inc)
    rw [(h.body b hb).2]
    by_cases he : b = f.entry
    · subst he
      match e : H f.entry, hH with
      | [], _ => exact k1
      | [n], _ => exact ⟨fun y B e => calm_passes (k2 y B e), k1⟩
    · rw [h.head b he]; exact k1
  · rw [h.entry] at he
    rw [(h.body b hb).2, h.head b he] at e
    exact (ex_linked hr h hb (codeOf f b) (fun x => inc)).2 y B e
  · rw [(h.body c hc).1] at hx
    have hp : (f.insn x).op = .phi := phisOf_phi hx
    have hL : Live f x := .inr (.inr ⟨c, hr.blocks c hc, inp hx⟩)
    rw [(h.plain c hc x (inp hx) (by rw [hp]; simp)).1] at ho
    have : Val.insn y ∈ operands (mapOps (renV rn) (f.insn x)) := by
      unfold operands
      refine List.mem_append_left _ (List.mem_append_right _ ?_)
      rw [if_pos (show (mapOps (renV rn) (f.insn x)).op = .phi from hp)]
      exact List.mem_map.2 ⟨_, ho, rfl⟩
    rw [operands_mapOps] at this
    obtain ⟨v, hv, ev⟩ := List.mem_map.1 this
    cases v with
    | insn z =>
      cases ev
      exact h.place_big (hr.tidy.closed x z hL (refs_pos.2 hv))
    | _ => cases ev

end Verif.Fit
