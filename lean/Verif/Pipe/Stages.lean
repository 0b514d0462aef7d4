import Verif.Pipe.Thin
import Verif.Pipe.Within
/-!
# Each pass on a program in SSA form
-/

namespace Verif.Pipe

open Verif.Il Verif.Graph Verif.Dom Verif.Opt Verif.Ssa Verif.Prune

variable {V W : Type}

/-- The binary and unary operations of the program depend on nothing but their operands. -/
def TimelessOps (I : Interp V W) (c : Cfg) : Prop :=
  ∀ (l k : Nat) (i : Inst), instAt c l k = some i → i.t = .bin ∨ i.t = .un → Timeless I (opcode i)

theorem entry_dom {E : Nat → Nat → Prop} {entry : Nat} (l : Nat) : Dominates E entry entry l := by
  intro L hw
  induction hw with
  | start => simp
  | step h _ ih => exact List.mem_append_left _ ih

theorem dvn_stage [Nonempty W] {K : Evaluator} {I : Interp V W} (sound : EvalSound K I) (silent : ReadsAreSilent I)
    {c : Cfg} (P : SsaProgram c) (timeless : TimelessOps I c) {fuel : Nat} (hf : c.graph.labels.length + 3 ≤ fuel)
    {d : Dom} (hd : calculateDom c.graph fuel c.entry = some d) :
    ∃ c', dvn K d fuel c = some c' ∧ SsaProgram c' ∧ NoCopyChains c' ∧ (OnlyBranchesFork c → OnlyBranchesFork c') ∧
      TimelessOps I c' ∧ c'.graph = c.graph ∧ c'.entry = c.entry ∧ c'.bblocks.map (·.1) = c.bblocks.map (·.1) ∧
      ∀ (e : Nat → V) (w : W) (n : Nat), Opt.run I c' e w n = Opt.run I c e w n := by
  obtain ⟨ops, hg⟩ := P.graph
  have wf := P.wf
  have ssa := P.ssa
  have wg := ((C26_history ops).2 _ hg).wf
  have t := tree_of_eq hg hf hd
  obtain ⟨c', h1, rel, -, hroot⟩ := inner_roots sound silent wf ssa wg t fuel [] {} c c.entry List.nodup_nil (by simp)
    .refl (by simp only [List.length_cons, List.length_nil]; omega) (rel_refl wf ssa timeless)
    ⟨by simp, by simp, by simp⟩ ⟨by simp, by simp, by
      intro x y i t hD
      exact absurd (dom_of_entry hD.1) hD.2⟩
  have wf' := wf_rel wf rel
  have hsome : ∀ l, (Cfg.block c' l).isSome ↔ (Cfg.block c l).isSome := by
    intro l
    rw [Cfg.block, Cfg.block, lookup_isSome_iff, lookup_isSome_iff, rel.labels]
  refine ⟨c', h1, ⟨?_, wf', strict_rel ssa rel, ⟨?_, ?_⟩, ?_, ?_, ?_, ?_⟩, ?_, ?_, ?_, rel.graph, rel.entry, rel.labels,
    fun e w n => run_rel wf ssa rel e w n⟩
  · rw [rel.graph]; exact P.graph
  · intro l hl
    rw [rel.graph, rel.entry]
    exact P.reach.1 l ((hsome l).1 hl)
  · rw [rel.graph, rel.entry]
    exact P.reach.2
  · intro k i e ht
    obtain ⟨i0, h0, r⟩ := rel_other rel e
    rw [rel.entry] at h0
    exact P.entry k i0 h0 ((rel_phi_tgts r).1.1 ht)
  · intro l k i e ht p hp
    obtain ⟨i0, h0, r⟩ := rel_other rel e
    rw [rel.graph] at hp
    rcases r with ⟨hp0, r⟩ | ⟨hp0, r⟩
    · exact (r.labels p).2 (P.cover l k i0 h0 hp0 p hp)
    · exact absurd ht r.notPhi
  · intro l hl
    rw [rel.graph] at hl
    exact (hsome l).2 (P.nodes l hl)
  · intro l k i e ht s hs
    obtain ⟨i0, h0, r⟩ := rel_other rel e
    rw [rel.graph] at hs
    rcases r with ⟨hp0, r⟩ | ⟨hp0, r⟩
    · rw [r.phi] at ht; cases ht
    · by_cases h : i0.t = .condGoto
      · rw [(r.branch h).2.1]
        exact P.taken l k i0 h0 h s hs
      · exact absurd ht (r.noBranch h)
  · intro l k i l' k' i' y e ht hy e' ht' hm
    obtain ⟨i0, h0, r⟩ := rel_other rel e'
    have hp0 : i0.t ≠ .phi := fun h => by
      have := (rel_phi_tgts r).1.2 h
      rw [ht'] at this
      cases this
    have hr : Reach c.graph.Edge c.entry l := P.reach.1 l ((hsome l).1 (by
      cases hb : Cfg.block c' l with
      | none => simp [instAt, blockOf, hb] at e
      | some x => rfl))
    have := (hroot l k i (entry_dom l) hr e ht (.var y) hy y rfl l' k'
      ⟨i0, h0, hp0, (rel_phi_tgts r).2 ▸ hm⟩).2 i' e'
    exact this ht'
  · intro ho l hl a b ha hb
    rw [rel.graph] at ha hb
    refine ho l (fun k i hi ht => ?_) a b ha hb
    have hlt : k < (blockOf c' l).length := by rw [rel.len]; exact lt_of_instAt hi
    have e : instAt c' l k = some (blockOf c' l)[k] := List.getElem?_eq_getElem hlt
    rcases rel.point l k i _ hi e with ⟨hp, -⟩ | ⟨-, r⟩
    · rw [ht] at hp; cases hp
    · exact hl k _ e (r.branch ht).1
  · intro l k i e ht
    obtain ⟨i0, h0, r⟩ := rel_other rel e
    rcases r with ⟨hp0, r⟩ | ⟨hp0, r⟩
    · rw [r.phi] at ht; simp at ht
    · exact r.pure ht

/-! ## Removing results and copies -/

theorem mem_inst {c : Cfg} {l : Nat} {is : List Inst} (h : Cfg.block c l = some is) {i : Inst} (hi : i ∈ is) :
    ∃ k, instAt c l k = some i := by
  obtain ⟨k, hk⟩ := List.mem_iff_getElem?.1 hi
  exact ⟨k, by simp [instAt, blockOf, h, hk]⟩

theorem dce_timeless {I : Interp V W} {c : Cfg} (h : TimelessOps I c) : TimelessOps I (trivialDce c) := by
  intro l k i e ht
  rw [trivialDce_eq] at e
  obtain ⟨k0, i0, hi, hg, -⟩ := thin_at e
  rcases dceInst_cases (usedVars c) i0 with h1 | ⟨h0, -, h1⟩ | ⟨-, -, -, h1⟩
  · rw [h1] at hg
    obtain rfl := Option.some.inj hg
    exact h l k0 i0 hi ht
  · rw [h1] at hg
    obtain rfl := Option.some.inj hg
    exact h l k0 i0 hi ht
  · rw [h1] at hg
    cases hg

theorem copies_timeless {I : Interp V W} {c c' : Cfg} (h : TimelessOps I c) (e : redundantAssigns c = some c') :
    TimelessOps I c' := by
  obtain ⟨m, -, rfl⟩ := copies_eq e
  intro l k i e ht
  obtain ⟨k0, i0, hi, hg, -⟩ := thin_at e
  split at hg
  · cases hg
  · obtain rfl := Option.some.inj hg
    exact h l k0 i0 hi ht

theorem copies_stage {c : Cfg} (P : SsaProgram c) (nc : NoCopyChains c) :
    ∃ c', redundantAssigns c = some c' ∧ SsaProgram c' ∧ (OnlyBranchesFork c → OnlyBranchesFork c') ∧
      c'.graph = c.graph ∧ c'.entry = c.entry ∧ c'.bblocks.map (·.1) = c.bblocks.map (·.1) ∧ SameRuns c c' := by
  obtain ⟨m, h1, h2⟩ := copies_spec P.wf P.ssa
  obtain ⟨c', e, hr⟩ := C32_copies_partial c P.wf P.ssa nc
  obtain ⟨m', h1', rfl⟩ := copies_eq e
  rw [h1] at h1'
  obtain rfl := Option.some.inj h1'
  have ht := copies_thins P h2
  exact ⟨_, e, thin_program P ht, thin_only ht, rfl, rfl, keys_thin, fun I e w m => hr _ _ I e w m⟩

theorem dce_stage {c : Cfg} (P : SsaProgram c) :
    SsaProgram (trivialDce c) ∧ (OnlyBranchesFork c → OnlyBranchesFork (trivialDce c)) := by
  have ht := dce_thins P
  rw [trivialDce_eq]
  exact ⟨thin_program P ht, thin_only ht⟩

/-! ## Branches on constants -/

theorem joins_all {used : Nat → Bool} {ps : List Nat} : ∀ {is a b : List Inst},
    simplifyAll used ps is = some (a, b, false) → ∀ i ∈ is, 2 ≤ i.labels.length
  | [], a, b, _ => by simp
  | i :: is, a, b, e => by
    simp only [simplifyAll, Option.bind_eq_bind, Option.bind_eq_some_iff, Option.some.injEq, Prod.mk.injEq,
      Prod.exists, Bool.or_eq_false_iff] at e
    obtain ⟨p, q, f1, e1, a1, b1, f2, e2, -, -, rfl, rfl⟩ := e
    intro j hj
    rcases List.mem_cons.1 hj with rfl | hj
    · simp only [simplifyPhi] at e1
      split at e1
      · simp only [Option.bind_eq_bind, Option.bind_eq_some_iff, Option.some.injEq, Prod.mk.injEq] at e1
        obtain ⟨t, -, -, -, h⟩ := e1
        cases h
      · simp only [Option.bind_eq_bind, Option.bind_eq_some_iff, Option.some.injEq, Prod.mk.injEq] at e1
        obtain ⟨t, -, -, -, h⟩ := e1
        cases h
      · rename_i h1 h2
        simp only [Option.some.injEq, Prod.mk.injEq, Bool.or_eq_false_iff, bne_eq_false_iff_eq] at e1
        obtain ⟨-, -, h3, -⟩ := e1
        rw [← h3, List.length_map]
        match h : simplifyEntries ps j with
        | [] => exact absurd h h1
        | [e] => exact absurd h (h2 e)
        | e :: f :: r => simp
    · exact joins_all e2 j hj

theorem joins_blocks {used : Nat → Bool} {g : Graph} : ∀ {bs bs' : List (Nat × List Inst)},
    simplifyBlocks used g bs = some (bs', false) → ∀ e ∈ bs, ∀ i ∈ e.2, i.t = .phi → 2 ≤ i.labels.length
  | [], bs', _ => by simp
  | (l, is) :: bs, bs', e => by
    simp only [simplifyBlocks, simplifyBlock, Option.bind_eq_bind, Option.bind_eq_some_iff, Option.some.injEq,
      Prod.mk.injEq, Prod.exists, Bool.or_eq_false_iff] at e
    obtain ⟨js, f1, ⟨a, b, f, e1, -, rfl⟩, bs1, f2, e2, -, h1, rfl⟩ := e
    obtain ⟨-, rfl⟩ := Bool.or_eq_false_iff.1 h1
    intro e he i hi ht
    rcases List.mem_cons.1 he with rfl | he
    · exact joins_all e1 i (List.mem_filter.2 ⟨hi, by simp [ht]⟩)
    · exact joins_blocks e2 e he i hi ht

theorem joins_simple {c : Cfg} (h : simplifyPhis c = some (c, false)) : PhisJoin c := by
  simp only [simplifyPhis, Option.bind_eq_bind, Option.bind_eq_some_iff, Option.some.injEq, Prod.mk.injEq,
    Prod.exists] at h
  obtain ⟨bs, f, e, -, rfl⟩ := h
  intro l k i hi ht
  cases hb : Cfg.block c l with
  | none => simp [instAt, blockOf, hb] at hi
  | some is =>
    simp only [instAt, blockOf, hb, Option.getD_some] at hi
    exact joins_blocks e (l, is) (mem_of_lookup_eq hb) i (List.mem_of_getElem? hi) ht

theorem branches_more {c c' : Cfg} : ∀ {fuel m : Nat}, fuel ≤ m → impossibleBranches fuel c = some c' →
    impossibleBranches m c = some c' := by
  intro fuel
  induction fuel generalizing c with
  | zero => intro m _ e; cases e
  | succ fuel ih =>
    intro m hm e
    obtain ⟨m, rfl⟩ : ∃ q, m = q + 1 := ⟨m - 1, by omega⟩
    simp only [impossibleBranches, Option.bind_eq_bind, Option.bind_eq_some_iff, Prod.exists] at e ⊢
    obtain ⟨c1, b, h1, h2⟩ := e
    refine ⟨c1, b, h1, ?_⟩
    split at h2
    · rw [if_pos ‹_›]; exact ih (by omega) h2
    · rw [if_neg ‹_›]; exact h2

theorem branches_stage {c c' : Cfg} (P : SsaProgram c) (ho : OnlyBranchesFork c) {fuel : Nat}
    (e : impossibleBranches fuel c = some c') :
    SsaProgram c' ∧ PhisComplete c' ∧ PhisJoin c' ∧ BranchesFork c' ∧ OnlyBranchesFork c' ∧
      (NoBigIntBranch c → SameRunsConst c c') := by
  obtain ⟨n, c1, h1, h2, h3, h4, -, h5, h6, h7⟩ := C73_partial c P
  have e1 := branches_more (Nat.le_max_left fuel n) e
  rw [h1 _ (Nat.le_max_right _ _)] at e1
  obtain rfl := Option.some.inj e1
  exact ⟨h2, h3, joins_simple h6, fun l k i hi ht => (h4 l k i hi ht).1, h7 ho, h5⟩

end Verif.Pipe
