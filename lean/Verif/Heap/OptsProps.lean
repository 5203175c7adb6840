import Verif.Heap.Opts
import Verif.Opts.Props
/-!
# C79: memory of pass parameters

`bpf_ir_free_opts` frees the parameters that `bpf_ir_init_opts` has loaded, each once, whether or not all options were accepted, and can be called again.  Parameters are
lost exactly when a pass is given one twice.
-/
namespace Verif.Heap
open Verif Verif.Opts

/-! ## Spec -/

/-- The memory of parameters. -/
def mems {α : Type} (bs : List (Slot α)) : List Ptr := bs.flatMap (fun b => b.mem.toList)

def EnvM.mem (e : EnvM) : List Ptr := mems e.builtin ++ mems e.custom

/-- Every pass can unload its parameter. -/
def EnvM.Unloads (e : EnvM) : Prop := (∀ b ∈ e.builtin, b.unload = true) ∧ ∀ b ∈ e.custom, b.unload = true

/-- No parameter is loaded, and the memory is `x`. -/
structure EnvM.Fresh (e : EnvM) (x : List Ptr) : Prop where
  builtin : ∀ b ∈ e.builtin, b.mem = none
  custom : ∀ b ∈ e.custom, b.mem = none
  live : e.h.live.Perm x
  once : e.h.live.Nodup
  below : ∀ p ∈ e.h.live, p < e.h.next

/-- No parameter is loaded. -/
def EnvM.Clean (e : EnvM) : Prop := (∀ b ∈ e.builtin, b.mem = none) ∧ ∀ b ∈ e.custom, b.mem = none

/-- The pass that an option names. -/
def passOf (o : Str) : Str := o.takeWhile (· != '(')

/-! ## The same options as without memory -/

/-- Forget the memory of one search. -/
def forget {α : Type} (o : Out (Option (Int × Heap × List (Slot α)))) : Out (Option (Int × List α)) := do
  let r ← o
  .ok (r.map (fun r => (r.1, r.2.2.map (·.cfg))))

theorem applyM_builtin {name : Str} {par : Option Str} {h : Heap} : ∀ {bs : List (Slot Builtin)}, forget (applyM name par h bs) = applyBuiltin name par (bs.map (·.cfg)) := by
  intro bs
  induction bs with
  | nil => rfl
  | cons b bs ih =>
    rw [applyM, List.map_cons, applyBuiltin]
    by_cases hn : b.cfg.name = name
    · have hn' : Cfg.name b.cfg = name := hn
      rw [if_pos hn', if_pos hn]
      show forget (match loadParam b.cfg.load par with | .ok (.error e) => _ | .ok (.ok v) => _ | .err => _ | .crit => _ | .ub => _) = _
      generalize loadParam b.cfg.load par = o
      rcases o with (e | v) | _ | _ | _ <;> rfl
    · have hn' : ¬ Cfg.name b.cfg = name := hn
      rw [if_neg hn', if_neg hn, ← ih]
      generalize applyM name par h bs = o
      rcases o with (_ | ⟨r, h', bs'⟩) | _ | _ | _ <;> rfl

theorem applyM_custom {name : Str} {par : Option Str} {h : Heap} : ∀ {bs : List (Slot Custom)}, forget (applyM name par h bs) = applyCustom name par (bs.map (·.cfg)) := by
  intro bs
  induction bs with
  | nil => rfl
  | cons b bs ih =>
    rw [applyM, List.map_cons, applyCustom]
    by_cases hn : b.cfg.name = name
    · have hn' : Cfg.name b.cfg = name := hn
      rw [if_pos hn', if_pos hn]
      show forget (match loadParam b.cfg.load par with | .ok (.error e) => _ | .ok (.ok v) => _ | .err => _ | .crit => _ | .ub => _) = _
      generalize loadParam b.cfg.load par = o
      rcases o with (e | v) | _ | _ | _ <;> rfl
    · have hn' : ¬ Cfg.name b.cfg = name := hn
      rw [if_neg hn', if_neg hn, ← ih]
      generalize applyM name par h bs = o
      rcases o with (_ | ⟨r, h', bs'⟩) | _ | _ | _ <;> rfl

/-- Forget the memory of a result. -/
def plain (o : Out (Int × EnvM)) : Out (Int × Env) := do
  let r ← o
  .ok (r.1, r.2.env)

theorem applyPassM_plain {e : EnvM} {s : Str} : plain (applyPassM e s) = applyPass e.env s := by
  unfold applyPassM applyPass
  generalize scan [] none s = o
  rcases o with (_ | ⟨name, par, closed⟩) | _ | _ | _
  · rfl
  · show plain (if _ then _ else _) = (if _ then _ else _)
    by_cases h1 : par.isSome ∧ closed = false
    · rw [if_pos h1, if_pos h1]; rfl
    · rw [if_neg h1, if_neg h1]
      by_cases h2 : 32 ≤ name.length
      · rw [if_pos h2, if_pos h2]; rfl
      · rw [if_neg h2, if_neg h2]
        have hb := applyM_builtin (name := name) (par := par) (h := e.h) (bs := e.builtin)
        have hc := applyM_custom (name := name) (par := par) (h := e.h) (bs := e.custom)
        have e1 : e.env.builtin = e.builtin.map (·.cfg) := rfl
        have e2 : e.env.custom = e.custom.map (·.cfg) := rfl
        rw [e1, e2, ← hb, ← hc]
        generalize applyM name par e.h e.builtin = o1
        generalize applyM name par e.h e.custom = o2
        rcases o1 with (_ | ⟨r, h', bs'⟩) | _ | _ | _
        · rcases o2 with (_ | ⟨r, h', bs'⟩) | _ | _ | _ <;> rfl
        · rfl
        · rfl
        · rfl
        · rfl
  · rfl
  · rfl
  · rfl

theorem loop_plain {d : Char} {n : Nat} {f : EnvM → Str → Out (Int × EnvM)} {g : Env → Str → Out (Int × Env)} (hfg : ∀ e s, plain (f e s) = g e.env s) :
    ∀ (k : Nat) (e : EnvM) (s : Str), plain (loop d n f k e s) = loop d n g k e.env s
  | 0, e, [] => rfl
  | 0, e, _ :: _ => rfl
  | k + 1, e, [] => rfl
  | k + 1, e, c :: cs => by
    rw [loop, loop]
    generalize getOpt d n (c :: cs) = o
    rcases o with ⟨o, rest⟩ | _ | _ | _
    · rw [Out.ok_bind, Out.ok_bind]
      dsimp only
      rw [← hfg e o]
      generalize f e o = q
      rcases q with ⟨r, e'⟩ | _ | _ | _
      · show plain (if r < 0 then _ else _) = (if r < 0 then _ else _)
        by_cases h : r < 0
        · rw [if_pos h, if_pos h]; rfl
        · rw [if_neg h, if_neg h]
          cases rest with
          | nil => rfl
          | cons _ rest => exact loop_plain hfg k e' rest
      · rfl
      · rfl
      · rfl
    · rfl
    · rfl
    · rfl

/-- With and without memory, `bpf_ir_init_opts` has the same result. -/
theorem C79_same {e : EnvM} {g p : Option Str} : plain (initOptsM e g p) = initOpts e.env g p := by
  unfold initOptsM initOpts
  dsimp only
  have h1 := loop_plain (d := ',') (n := 64) (f := fun (e : EnvM) s => let r := applyGlobal e.opts s; Out.ok (r.1, { e with opts := r.2 }))
    (g := fun e s => let r := applyGlobal e.opts s; Out.ok (r.1, { e with opts := r.2 })) (fun e s => rfl) (g.getD []).length e (g.getD [])
  rw [← h1]
  generalize loop ',' 64 (fun (e : EnvM) s => let r := applyGlobal e.opts s; Out.ok (r.1, { e with opts := r.2 })) (g.getD []).length e (g.getD []) = o
  rcases o with ⟨r, e'⟩ | _ | _ | _
  · show plain (if r < 0 then _ else _) = (if r < 0 then _ else _)
    by_cases h : r < 0
    · rw [if_pos h, if_pos h]; rfl
    · rw [if_neg h, if_neg h]
      exact loop_plain (fun e s => applyPassM_plain) _ _ _
  · rfl
  · rfl
  · rfl

/-! ## Memory -/

theorem scan_name_some {s : Str} : ∀ {nm p : Str} {name : Str} {par : Option Str} {c : Bool}, scan nm (some p) s = .ok (some (name, par, c)) → name = nm := by
  induction s with
  | nil => intro nm p name par c e; simp only [scan, Out.ok.injEq, Option.some.injEq, Prod.mk.injEq] at e; exact e.1.symm
  | cons x xs ih =>
    intro nm p name par c e
    rw [scan] at e
    split at e
    · cases e
    · split at e
      · simp only [Out.ok.injEq, Option.some.injEq, Prod.mk.injEq] at e; exact e.1.symm
      · exact ih e

theorem scan_name {s : Str} : ∀ {nm : Str} {name : Str} {par : Option Str} {c : Bool}, scan nm none s = .ok (some (name, par, c)) → name = nm ++ passOf s := by
  induction s with
  | nil => intro nm name par c e; simp only [scan, Out.ok.injEq, Option.some.injEq, Prod.mk.injEq] at e; simp [passOf, e.1]
  | cons x xs ih =>
    intro nm name par c e
    rw [scan] at e
    split at e
    · cases e
    · split at e
      · next hx =>
        rw [scan_name_some e]
        simp [passOf, hx]
      · next hx =>
        split at e
        · cases e
        · rw [ih e]
          have : (x != '(') = true := by simpa using hx
          simp [passOf, List.takeWhile_cons, this]

section
variable {α : Type} [Cfg α]

/-- What a search does to the memory: `y` is lost. -/
structure Did (name : Str) (bs bs' : List (Slot α)) (h' : Heap) (l y : List Ptr) : Prop where
  good : Good h' (mems bs' ++ (y ++ l))
  kept : (∀ b ∈ bs, Cfg.name b.cfg = name → b.mem = none) → y = []
  from_ : ∀ b' ∈ bs', b'.mem.isSome = true → Cfg.name b'.cfg = name ∨ ∃ b ∈ bs, Cfg.name b.cfg = Cfg.name b'.cfg ∧ b.mem.isSome = true
  unload : (∀ b ∈ bs, b.unload = true) → ∀ b' ∈ bs', b'.unload = true

theorem applyM_did (hset : ∀ (b : α) v, Cfg.name (Cfg.set b v) = Cfg.name b) {name : Str} {par : Option Str} {r : Int} {h h' : Heap} :
    ∀ {bs bs' : List (Slot α)} {l : List Ptr}, Good h (mems bs ++ l) → applyM name par h bs = .ok (some (r, h', bs')) → ∃ y, Did name bs bs' h' l y := by
  intro bs
  induction bs with
  | nil => intro bs' l _ e; cases e
  | cons b bs ih =>
    intro bs' l g e
    rw [applyM] at e
    split at e
    · next hn =>
      split at e
      · cases e
        exact ⟨[], g, fun _ => rfl, fun b' hb' hm => .inr ⟨b', hb', rfl, hm⟩, fun hu => hu⟩
      · next v hv =>
        cases e
        cases v with
        | none =>
          refine ⟨[], g, fun _ => rfl, fun b' hb' hm => ?_, fun hu b' hb' => ?_⟩
          · rcases List.mem_cons.mp hb' with rfl | hb'
            · exact .inl ((hset _ _).trans hn)
            · exact .inr ⟨b', List.mem_cons_of_mem _ hb', rfl, hm⟩
          · rcases List.mem_cons.mp hb' with rfl | hb'
            · exact hu b (by simp)
            · exact hu b' (List.mem_cons_of_mem _ hb')
        | some w =>
          refine ⟨b.mem.toList, g.malloc.perm fun a => ?_, fun hk => ?_, fun b' hb' hm => ?_, fun hu b' hb' => ?_⟩
          · simp only [mems, grab, List.flatMap_cons, List.count_append, Option.toList_some]
            omega
          · rw [hk b (by simp) hn]; rfl
          · rcases List.mem_cons.mp hb' with rfl | hb'
            · exact .inl ((hset _ _).trans hn)
            · exact .inr ⟨b', List.mem_cons_of_mem _ hb', rfl, hm⟩
          · rcases List.mem_cons.mp hb' with rfl | hb'
            · exact hu b (by simp)
            · exact hu b' (List.mem_cons_of_mem _ hb')
      · cases e
      · cases e
      · cases e
    · next hn =>
      cases e1 : applyM name par h bs with
      | ok o =>
        rw [e1] at e
        cases o with
        | none => cases e
        | some q =>
          obtain ⟨r1, h1, bs1⟩ := q
          cases e
          obtain ⟨y, d⟩ := ih (l := b.mem.toList ++ l) (g.perm fun a => by
            simp only [mems, List.flatMap_cons, List.count_append]
            omega) e1
          refine ⟨y, d.good.perm fun a => ?_, fun hk => d.kept fun c hc => hk c (List.mem_cons_of_mem _ hc), fun b' hb' hm => ?_, fun hu b' hb' => ?_⟩
          · simp only [mems, List.flatMap_cons, List.count_append]
            omega
          · rcases List.mem_cons.mp hb' with rfl | hb'
            · exact .inr ⟨b', by simp, rfl, hm⟩
            · rcases d.from_ b' hb' hm with h | ⟨c, hc, h⟩
              · exact .inl h
              · exact .inr ⟨c, List.mem_cons_of_mem _ hc, h⟩
          · rcases List.mem_cons.mp hb' with rfl | hb'
            · exact hu b' (by simp)
            · exact d.unload (fun c hc => hu c (List.mem_cons_of_mem _ hc)) b' hb'
      | err => rw [e1] at e; cases e
      | crit => rw [e1] at e; cases e
      | ub => rw [e1] at e; cases e

theorem freeSlots_sure : ∀ {bs : List (Slot α)} {h : Heap} {l : List Ptr}, Good h (mems bs ++ l) → (∀ b ∈ bs, b.unload = true) →
    Sure (freeSlots h bs) (fun r => Good r.1 l ∧ ∀ b ∈ r.2, b.mem = none) := by
  intro bs
  induction bs with
  | nil => intro h l g _; exact ⟨_, rfl, g, by simp⟩
  | cons b bs ih =>
    intro h l g hu
    have hu1 := hu b (by simp)
    have hu2 : ∀ c ∈ bs, c.unload = true := fun c hc => hu c (List.mem_cons_of_mem _ hc)
    unfold freeSlots
    cases hm : b.mem with
    | none =>
      dsimp only
      have g' : Good h (mems bs ++ l) := by simpa [mems, hm] using g
      refine (ih g' hu2).bind ?_
      rintro ⟨h1, bs1⟩ ⟨g1, k1⟩
      refine ⟨_, rfl, g1, ?_⟩
      intro c hc
      rcases List.mem_cons.mp hc with rfl | hc
      · exact hm
      · exact k1 c hc
    | some p =>
      rw [hu1]
      dsimp only
      have g' : Good h ([p] ++ (mems bs ++ l)) := by simpa [mems, hm] using g
      refine g'.free.bind fun h1 g1 => (ih g1 hu2).bind ?_
      rintro ⟨h2, bs2⟩ ⟨g2, k2⟩
      refine ⟨_, rfl, g2, ?_⟩
      intro c hc
      rcases List.mem_cons.mp hc with rfl | hc
      · rfl
      · exact k2 c hc

theorem freeSlots_none {h : Heap} : ∀ {bs : List (Slot α)}, (∀ b ∈ bs, b.mem = none) → freeSlots h bs = .ok (h, bs) := by
  intro bs
  induction bs with
  | nil => intro _; rfl
  | cons b bs ih =>
    intro hb
    unfold freeSlots
    rw [hb b (by simp)]
    dsimp only
    rw [ih fun c hc => hb c (List.mem_cons_of_mem _ hc)]
    rfl

end

/-- The state of the memory between options: `y` is lost, and parameters belong to passes in `done`. -/
structure Mid (x y : List Ptr) (done : List Str) (e : EnvM) : Prop where
  good : Good e.h (e.mem ++ (y ++ x))
  builtin : ∀ b ∈ e.builtin, b.mem.isSome = true → b.cfg.name ∈ done
  custom : ∀ b ∈ e.custom, b.mem.isSome = true → b.cfg.name ∈ done
  unloads : e.Unloads

theorem applyPassM_mid {x y : List Ptr} {done : List Str} {e e' : EnvM} {s : Str} {r : Int} (k : Mid x y done e) (he : applyPassM e s = .ok (r, e')) :
    ∃ z, Mid x (z ++ y) (passOf s :: done) e' ∧ (passOf s ∉ done → z = []) := by
  have k0 : ∃ z, Mid x (z ++ y) (passOf s :: done) e ∧ (passOf s ∉ done → z = []) :=
    ⟨[], ⟨k.good, fun b hb h => List.mem_cons_of_mem _ (k.builtin b hb h), fun b hb h => List.mem_cons_of_mem _ (k.custom b hb h), k.unloads⟩, fun _ => rfl⟩
  unfold applyPassM at he
  cases e1 : scan [] none s with
  | ok o =>
    rw [e1, Out.ok_bind] at he
    cases o with
    | none => cases he; exact k0
    | some q =>
      obtain ⟨name, par, closed⟩ := q
      have hname : name = passOf s := scan_name e1
      dsimp only at he
      split at he
      · cases he; exact k0
      · split at he
        · cases he
        · cases e2 : applyM name par e.h e.builtin with
          | ok o =>
            rw [e2, Out.ok_bind] at he
            cases o with
            | some q =>
              obtain ⟨r1, h1, bs⟩ := q
              cases he
              obtain ⟨z, d⟩ := applyM_did (fun b v => rfl) (l := mems e.custom ++ (y ++ x)) (k.good.perm fun a => by
                simp only [EnvM.mem, List.count_append]
                omega) e2
              refine ⟨z, ⟨d.good.perm fun a => ?_, fun b hb hm => ?_, fun b hb h => List.mem_cons_of_mem _ (k.custom b hb h), d.unload k.unloads.1, k.unloads.2⟩, fun hn => d.kept ?_⟩
              · simp only [EnvM.mem, List.count_append]
                omega
              · rcases d.from_ b hb hm with h | ⟨c, hc, h, h'⟩
                · exact List.mem_cons.mpr (.inl (h.trans hname))
                · refine List.mem_cons_of_mem _ ?_
                  have e3 : b.cfg.name = c.cfg.name := h.symm
                  rw [e3]
                  exact k.builtin c hc h'
              · intro b hb hb'
                cases hm : b.mem with
                | none => rfl
                | some p =>
                  have e3 : b.cfg.name = name := hb'
                  exact absurd (hname ▸ e3 ▸ k.builtin b hb (by rw [hm]; rfl)) hn
            | none =>
              dsimp only at he
              cases e3 : applyM name par e.h e.custom with
              | ok o =>
                rw [e3, Out.ok_bind] at he
                cases o with
                | some q =>
                  obtain ⟨r1, h1, bs⟩ := q
                  cases he
                  obtain ⟨z, d⟩ := applyM_did (fun b v => rfl) (l := mems e.builtin ++ (y ++ x)) (k.good.perm fun a => by
                    simp only [EnvM.mem, List.count_append]
                    omega) e3
                  refine ⟨z, ⟨d.good.perm fun a => ?_, fun b hb h => List.mem_cons_of_mem _ (k.builtin b hb h), fun b hb hm => ?_, k.unloads.1, d.unload k.unloads.2⟩, fun hn => d.kept ?_⟩
                  · simp only [EnvM.mem, List.count_append]
                    omega
                  · rcases d.from_ b hb hm with h | ⟨c, hc, h, h'⟩
                    · exact List.mem_cons.mpr (.inl (h.trans hname))
                    · refine List.mem_cons_of_mem _ ?_
                      have e3 : b.cfg.name = c.cfg.name := h.symm
                      rw [e3]
                      exact k.custom c hc h'
                  · intro b hb hb'
                    cases hm : b.mem with
                    | none => rfl
                    | some p =>
                      have e3 : b.cfg.name = name := hb'
                      exact absurd (hname ▸ e3 ▸ k.custom b hb (by rw [hm]; rfl)) hn
                | none => cases he; exact k0
              | err => rw [e3] at he; cases he
              | crit => rw [e3] at he; cases he
              | ub => rw [e3] at he; cases he
          | err => rw [e2] at he; cases he
          | crit => rw [e2] at he; cases he
          | ub => rw [e2] at he; cases he
  | err => rw [e1] at he; cases he
  | crit => rw [e1] at he; cases he
  | ub => rw [e1] at he; cases he

theorem seqPass_mid {x : List Ptr} : ∀ {ps : List Str} {y : List Ptr} {done : List Str} {e e' : EnvM} {r : Int}, Mid x y done e → seqOpts applyPassM e ps = .ok (r, e') →
    ∃ z done', Mid x (z ++ y) done' e' ∧ ((ps.map passOf).Nodup → (∀ o ∈ ps, passOf o ∉ done) → z = []) := by
  intro ps
  induction ps with
  | nil => intro y done e e' r k he; cases he; exact ⟨[], done, k, fun _ _ => rfl⟩
  | cons o ps ih =>
    intro y done e e' r k he
    rw [seqOpts] at he
    cases e1 : applyPassM e o with
    | ok q =>
      obtain ⟨r1, e2⟩ := q
      rw [e1, Out.ok_bind] at he
      obtain ⟨z, k1, hz⟩ := applyPassM_mid k e1
      dsimp only at he
      split at he
      · cases he
        exact ⟨z, _, k1, fun _ hd => hz (hd o (by simp))⟩
      · obtain ⟨w, done', k2, hw⟩ := ih k1 he
        refine ⟨w ++ z, done', by rw [List.append_assoc]; exact k2, fun hn hd => ?_⟩
        rw [List.map_cons] at hn
        obtain ⟨hn1, hn2⟩ := List.nodup_cons.mp hn
        rw [hz (hd o (by simp)), hw hn2 ?_]
        · rfl
        · intro o' ho' hm
          rcases List.mem_cons.mp hm with h | h
          · exact hn1 (h ▸ List.mem_map_of_mem ho')
          · exact hd o' (List.mem_cons_of_mem _ ho') h
    | err => rw [e1] at he; cases he
    | crit => rw [e1] at he; cases he
    | ub => rw [e1] at he; cases he

theorem seqGlobal_mid {x y : List Ptr} {done : List Str} : ∀ {gs : List Str} {e e' : EnvM} {r : Int}, Mid x y done e →
    seqOpts (fun (e : EnvM) s => let r := applyGlobal e.opts s; Out.ok (r.1, { e with opts := r.2 })) e gs = .ok (r, e') → Mid x y done e' := by
  intro gs
  induction gs with
  | nil => intro e e' r k he; cases he; exact k
  | cons o gs ih =>
    intro e e' r k he
    rw [seqOpts, Out.ok_bind] at he
    split at he
    · cases he; exact ⟨k.good, k.builtin, k.custom, k.unloads⟩
    · exact ih (e := { e with opts := (applyGlobal e.opts o).2 }) ⟨k.good, k.builtin, k.custom, k.unloads⟩ he

theorem Mid.free {x y : List Ptr} {done : List Str} {e : EnvM} (k : Mid x y done e) : ∃ e', freeOpts e = .ok e' ∧ e'.Clean ∧ freeOpts e' = .ok e' ∧ e'.h.live.Perm (y ++ x) := by
  obtain ⟨⟨h1, bs⟩, e1, g1, k1⟩ := freeSlots_sure (l := mems e.custom ++ (y ++ x)) (k.good.perm fun a => by
    simp only [EnvM.mem, List.count_append]
    omega) k.unloads.1
  obtain ⟨⟨h2, cs⟩, e2, g2, k2⟩ := freeSlots_sure g1 k.unloads.2
  dsimp only at g1 g2 k1 k2 e1 e2
  refine ⟨⟨e.opts, bs, cs, h2⟩, ?_, ⟨k1, k2⟩, ?_, g2.live⟩
  · unfold freeOpts
    rw [e1, Out.ok_bind]
    dsimp only
    rw [e2, Out.ok_bind]
  · unfold freeOpts
    dsimp only
    rw [freeSlots_none k1, Out.ok_bind]
    dsimp only
    rw [freeSlots_none k2, Out.ok_bind]

/-- Whatever the options and whether or not they are accepted, `bpf_ir_free_opts` afterwards frees nothing twice, leaves no parameter, touches no other memory and can be
called again; if no two options name the same pass, all memory that was allocated for parameters is freed. -/
theorem C79_free_partial {e e' : EnvM} {x : List Ptr} (hf : e.Fresh x) (hu : e.Unloads) {g p : Str} {gs ps : List Str} (hg : Listed ',' g gs) (hp : Listed ',' p ps)
    (hgl : ∀ o ∈ gs, o.length < 64) (hpl : ∀ o ∈ ps, o.length < 64) {r : Int} (he : initOptsM e (some g) (some p) = .ok (r, e')) :
    ∃ e'' y, freeOpts e' = .ok e'' ∧ e''.Clean ∧ freeOpts e'' = .ok e'' ∧ e''.h.live.Perm (y ++ x) ∧ ((ps.map passOf).Nodup → y = []) := by
  have k : Mid x [] [] e := by
    have hm : e.mem = [] := by
      unfold EnvM.mem mems
      rw [List.append_eq_nil_iff, List.flatMap_eq_nil_iff, List.flatMap_eq_nil_iff]
      exact ⟨fun b hb => by rw [hf.builtin b hb]; rfl, fun b hb => by rw [hf.custom b hb]; rfl⟩
    refine ⟨by rw [hm]; exact ⟨hf.live, hf.once, hf.below⟩, ?_, ?_, hu⟩
    · intro b hb h; rw [hf.builtin b hb] at h; cases h
    · intro b hb h; rw [hf.custom b hb] at h; cases h
  unfold initOptsM at he
  dsimp only [Option.getD_some] at he
  rw [C43_list_partial ',' 64 _ hg hgl _ _ (Nat.le_refl _)] at he
  cases e1 : seqOpts (fun (e : EnvM) s => let r := applyGlobal e.opts s; Out.ok (r.1, { e with opts := r.2 })) e gs with
  | ok q =>
    obtain ⟨r1, e2⟩ := q
    have k2 := seqGlobal_mid k e1
    rw [e1, Out.ok_bind] at he
    dsimp only at he
    split at he
    · cases he
      obtain ⟨e'', h1, h2, h3, h4⟩ := k2.free
      exact ⟨e'', [], h1, h2, h3, h4, fun _ => rfl⟩
    · rw [C43_list_partial ',' 64 _ hp hpl _ _ (Nat.le_refl _)] at he
      obtain ⟨z, done, k3, hz⟩ := seqPass_mid k2 he
      obtain ⟨e'', h1, h2, h3, h4⟩ := k3.free
      exact ⟨e'', z ++ [], h1, h2, h3, h4, fun hn => by rw [hz hn fun _ _ h => by cases h]; rfl⟩
  | err => rw [e1] at he; cases he
  | crit => rw [e1] at he; cases he
  | ub => rw [e1] at he; cases he

/-! ## Cases -/

/-- The two passes with parameters. -/
def envA : EnvM :=
  ⟨{}, [⟨⟨"optimize_ir".toList, some optimLoad, none, true, false⟩, true, none⟩, ⟨⟨"insn_counter".toList, some counterLoad, none, false, false⟩, true, none⟩], [], ⟨[3, 5], 6⟩⟩

theorem envA_fresh : envA.Fresh [3, 5] where
  builtin := by
    intro b hb
    simp only [envA, List.mem_cons, List.not_mem_nil, or_false] at hb
    rcases hb with rfl | rfl <;> rfl
  custom := by intro b hb; cases hb
  live := .refl _
  once := by decide
  below := by decide

theorem envA_unloads : envA.Unloads := by
  refine ⟨?_, by intro b hb; cases hb⟩
  intro b hb
  simp only [envA, List.mem_cons, List.not_mem_nil, or_false] at hb
  rcases hb with rfl | rfl <;> rfl

/-- The memory after `bpf_ir_init_opts` and after `bpf_ir_free_opts`. -/
def memory (p : String) : Option (List Ptr × List Ptr) :=
  match initOptsM envA none (some p.toList) with
  | .ok (_, e) =>
    match freeOpts e with
    | .ok e' => some (e.h.live, e'.h.live)
    | _ => none
  | _ => none

/-- Two parameters are loaded and freed. -/
example : memory "insn_counter(limit=5),optimize_ir(noopt)" = some ([7, 6, 3, 5], [3, 5]) := by decide +kernel

/-- A parameter that was loaded in front of an option that is refused is freed too. -/
example : memory "insn_counter(limit=5),nothing" = some ([6, 3, 5], [3, 5]) := by decide +kernel

/-- A pass that is given a parameter twice loses the memory of the first one. -/
theorem C79_violated_twice : memory "insn_counter(limit=5),insn_counter(limit=6)" = some ([7, 6, 3, 5], [6, 3, 5]) := by decide +kernel

end Verif.Heap
