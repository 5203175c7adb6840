import Verif.Count.KeepProps
/-!
# C66: the function with the labels brought up to date ends
-/
namespace Verif.Count
open Verif Verif.IR Verif.Edit Verif.Guard

variable {f f1 g h : Fn} {v : Val} {lim : BitVec 32} {bs : List Nat}

theorem nowAt_mem (hs : Shape f) (ho : ∀ b, b ∉ f.allBbs → f.body b = []) (U : Setup f f1) (R : Built f1 f.next v lim bs g)
    (hpar : h.parent = g.parent) (hall : h.allBbs = g.allBbs) {c : Nat} (hc : c ∈ h.allBbs) : nowAt f h c ∈ h.allBbs := by
  obtain ⟨n1, n2⟩ := R.nowAt hs U hpar
  by_cases hcf : c ∈ f.allBbs
  · by_cases hb : c ∈ bs
    · obtain ⟨t, e, l, ad, s, j, N⟩ := R.sites c hb
      obtain ⟨A, B, h1, h2, h3, h4⟩ := R.spot hs U N
      rcases h4 with ⟨h5, h6⟩ | ⟨x, h5, h6, h7, h8, h9, h10⟩
      · rw [(n2 c hb t e l ad s j A B N h1 h2).1 h5]; exact hc
      · rw [(n2 c hb t e l ad s j A B N h1 h2).2 x h5 h8 h9, hall]; exact h8
    · rw [n1 c hcf hb]; exact hc
  · unfold Count.nowAt
    rw [ho c hcf]
    exact hc

theorem Site.relabel {a b t e l ad s j : Nat} {w : Val} (S : Site h a b t e l ad s j w lim) : Site (relabel f h) a b t e l ad s j w lim := by
  have hrel : ∀ x, (Count.relabel f h).insn x = relab (nowAt f h) (h.insn x) := fun _ => rfl
  refine ⟨S.inB, by rw [hrel, S.load]; rfl, by rw [hrel, S.add]; rfl, by rw [hrel, S.store]; rfl, by rw [hrel, S.jump]; rfl, S.succs, S.ne, S.body, ?_, S.inE⟩
  obtain ⟨th, h1, h2⟩ := S.err
  exact ⟨th, h1, by rw [hrel, h2]; rfl⟩

theorem shape_relabel (hs : Shape h) (hm : ∀ c ∈ h.allBbs, nowAt f h c ∈ h.allBbs) : Shape (relabel f h) := by
  have hrefs : ∀ x y, refs ((relabel f h).insn x) y = refs (h.insn x) y := by
    intro x y
    rw [refs_eq, refs_eq]
    congr 1
    show operands (relab (nowAt f h) (h.insn x)) = _
    simp only [operands, relab, List.map_map]
    rfl
  refine ⟨⟨hs.tidy.lt, fun x y hx hr => hs.tidy.closed x y hx (by rw [← hrefs]; exact hr), hs.tidy.parent, hs.tidy.nodup, hs.tidy.fixed⟩, ⟨hs.graph.sym, hs.graph.succs, hs.graph.preds⟩, hs.wired, hs.entry, hs.phis, hs.last, ?_⟩
  intro b hb x hx hop o ho
  obtain ⟨o', h1, rfl⟩ := List.mem_map.1 ho
  exact hm _ (hs.labels b hb x hx hop o' h1)

theorem Inst.relabel {a s0 : Nat} (I : Inst h a s0 lim bs) (hm : ∀ c ∈ h.allBbs, nowAt f h c ∈ h.allBbs) : Inst (relabel f h) a s0 lim bs := by
  have hrel : ∀ x, (Count.relabel f h).insn x = relab (nowAt f h) (h.insn x) := fun _ => rfl
  refine ⟨shape_relabel I.shape hm, by rw [hrel, I.alloc]; rfl, by rw [hrel, I.init]; rfl, I.body, I.noPreds, ?_, ?_⟩
  · intro b hb hc
    obtain ⟨t, e, l, ad, s, j, k, c, ct, bi, S, h1⟩ := I.sites b hb (conn_same (by rfl) (by rfl) hc)
    exact ⟨t, e, l, ad, s, j, k, c, ct, bi, S.relabel, h1⟩
  · intro x hx hop hv
    rcases I.stores x hx hop hv with h1 | ⟨b, hb, t, e, l, ad, s, j, w, S, h1⟩
    · exact .inl h1
    · exact .inr ⟨b, hb, t, e, l, ad, s, j, w, S.relabel, h1⟩

/-- C29 for the function with the labels brought up to date: after a number of steps that depends on the function and the limit only, no execution is still running. -/
theorem C66_ends {rs : List Nat} {acc : Bool} (hi : Input rs f) (ho : ∀ b, b ∉ f.allBbs → f.body b = []) (hg : insnCounter rs acc lim f = .ok g)
    (hh : Filled g h) (hl : lim.toNat < 2 ^ 31) :
    ∃ K, ∀ (W : World), 4 ≤ W.wid f.next → ∀ (σ : St) (m : Nat), K ≤ m → ∀ c r τ, runFn W (relabel f h) m σ ≠ .running c r τ := by
  obtain ⟨f1, bs, U, R, hb⟩ := insnCounter_built hi.shape hi.noPhis hi.nodup hi.blocks hi.all hg
  have he := preds_entry hi.shape hi.entry U R
  obtain ⟨i, e⟩ := hh.same
  have I := (filled_inst hi.shape hi.entry U R hh).relabel (f := f) fun c hc => nowAt_mem hi.shape ho U R (by rw [e]) (by rw [e]) hc
  refine ⟨(lim.toNat + 3) * ((relabel f h).allBbs.length + 1) * (longest (relabel f h) + 1) + 1, fun W hw σ m hm c r τ hrun => ?_⟩
  have := (I.bound hw hl (fun C hC hcn => by
    have hC' : Cyclic g C := ⟨hC.nonempty, by have := hC.pred; rw [show (relabel f h).preds = g.preds by show h.preds = _; rw [e]] at this; exact this⟩
    exact R.cycle U.shape he hb hC' (fun c hc => conn_same (by show h.succs = _; rw [e]) (by show h.entry = _; rw [e]) (hcn c hc))) σ m).2 c r τ hrun
  omega

/-- A cycle of the new function without a counter is one of the old function. -/
theorem Built.old_cycle (hs : Shape f1) (R : Built f1 f.next v lim bs g) {C : List Nat} (hC : Cyclic g C) (hcn : ∀ c ∈ C, Conn g c) :
    (∃ c ∈ C, c ∈ bs) ∨ (Cyclic f1 C ∧ ∀ c ∈ C, Conn f1 c) := by
  by_cases hx : ∃ c ∈ C, c ∈ bs
  · exact .inl hx
  have hno : ∀ c ∈ C, c ∉ bs := fun c hc hb => hx ⟨c, hc, hb⟩
  have hold : ∀ c ∈ C, c ∈ f1.allBbs := by
    intro c hc
    apply Classical.byContradiction
    intro hn
    obtain ⟨b, hb, hp, _⟩ := R.new c (Conn.mem R.shape (hcn c hc)) hn
    obtain ⟨p, hpc, hpp⟩ := hC.pred c hc
    rw [hp] at hpp
    exact hno p hpc (by rw [List.mem_singleton.1 hpp]; exact hb)
  refine .inr ⟨⟨hC.nonempty, fun c hc => ?_⟩, fun c hc => (R.conn hs (hcn c hc)).1 (hold c hc)⟩
  obtain ⟨p, hpc, hpp⟩ := hC.pred c hc
  rcases R.origin c (hold c hc) p hpp with h | ⟨h, _⟩
  · exact ⟨p, hpc, h⟩
  · exact absurd (hold p hpc) h

/-- C67, for the jumps: the same where every cycle that can be reached contains a jump. -/
theorem C67_ends {rs : List Nat} (hi : Input rs f) (ho : ∀ b, b ∉ f.allBbs → f.body b = []) (hne : jumps rs f ≠ []) (hg : jmpComplexity rs f = .ok g)
    (hcyc : ∀ C, Cyclic f C → (∀ c ∈ C, Conn f c) → ∃ c ∈ C, ∃ x ∈ f.body c, isJmp (f.insn x).op = true) :
    ∃ K, ∀ (W : World), 4 ≤ W.wid f.next → ∀ (σ : St) (m : Nat), K ≤ m → ∀ c r τ, runFn W (relabel f g) m σ ≠ .running c r τ := by
  obtain ⟨f1, bs, U, R, hb, hb'⟩ := jmp_built hi.shape hi.noPhis hi.nodup hi.blocks hne hg
  have I := (plain_inst (k := .plain) (ct := .w32) (bi := .none) (c := 1) (by decide) hi.shape hi.entry U R).relabel (f := f)
    fun c hc => nowAt_mem hi.shape ho U R rfl rfl hc
  refine ⟨((100 : BitVec 32).toNat + 3) * ((relabel f g).allBbs.length + 1) * (longest (relabel f g) + 1) + 1, fun W hw σ m hm c r τ hrun => ?_⟩
  have := (I.bound hw (by decide) (fun C hC hcn => by
    have hC' : Cyclic g C := ⟨hC.nonempty, hC.pred⟩
    rcases R.old_cycle U.shape hC' (fun c hc => conn_same (by rfl) (by rfl) (hcn c hc)) with h | ⟨h1, h2⟩
    · exact h
    · have h3 : ∀ c ∈ C, Conn f c := fun c hc => conn_same U.succs U.entry (h2 c hc)
      obtain ⟨c, hc, x, hx, hj⟩ := hcyc C ⟨h1.nonempty, by have := h1.pred; rw [U.preds] at this; exact this⟩ h3
      exact ⟨c, hc, hb c (hi.all c (h3 c hc)) x hx hj⟩) σ m).2 c r τ hrun
  omega

end Verif.Count
