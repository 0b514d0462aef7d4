import Verif.Ssa.BranchProof
import Verif.Ssa.Theorems
/-!
# Passes on programs in SSA form: C72 and C73

`Spec` of this directory says which programs these are (`SsaProgram`) and when two programs run alike.
-/

namespace Verif.Ssa

open Verif.Il Verif.Graph Verif.Dom Verif.Opt

/-- **C71**, partial: what entering SSA makes is a program the following passes are made for, provided every
node of the graph has a block and branches are the only cause of the edges from their blocks.  Missing as for
`C71_partial`. -/
theorem C71_program_partial (c : Cfg) (ops : List Op) (hg : Graph.run ops = some c.graph) (n fuel : Nat)
    (wf : WellFormed c) (hph : NoPhis c) (hall : AllReachable c) (hent : FreshEntry c) (below : VarsBelow c n)
    (hn : NodesHaveBlocks c) (ht : EdgesTaken c) (hf : c.bblocks.length + c.graph.labels.length + 3 ≤ fuel) :
    ∃ (c' : Cfg) (n' : Nat), construct fuel c n = some (c', n') ∧ SsaProgram c' ∧ PhisComplete c' ∧
      (OnlyBranchesFork c → OnlyBranchesFork c') ∧ OpsFrom c c' := by
  obtain ⟨c', n', vs, σ, k, E, hc, h⟩ := construct_cert hg wf hph hall.1 hall.2 hent (N := n) hf
  obtain ⟨d, -, t⟩ := calculateDom_tree ops c.graph hg c.entry fuel (by omega)
  have hpc := phis_complete h hph hall
  have hinst : ∀ {l j i}, instAt c' l j = some i → Reach c.graph.Edge c.entry l := by
    intro l j i e
    refine hall.1 l ((block_some h l).1 ?_)
    cases hb : Cfg.block c' l with
    | none => simp [instAt, blockOf, hb] at e
    | some x => rfl
  refine ⟨c', n', hc, ?_, hpc, ?_, ?_⟩
  rotate_left
  · intro ho l hl a b ha hb
    rw [h.graph] at ha hb
    refine ho l (fun j i hi ht => ?_) a b ha hb
    have e := inst_ren h (hall.2 l a ha) hi
    exact hl _ _ e ht
  · intro l j i e ht
    rcases inst_cases h (hinst e) e with ⟨v, -, -, rfl⟩ | ⟨-, i0, h1, rfl⟩
    · exact absurd rfl ht
    · exact ⟨l, _, i0, h1, rfl, rfl⟩
  exact
    { graph := ⟨ops, by rw [h.graph]; exact hg⟩
      wf := wellFormed h wf hph hall
      ssa := ssa h hph hall hent below t
      reach := by
        refine ⟨?_, ?_⟩
        · intro l hl
          rw [h.graph, h.entry]
          exact hall.1 l ((block_some h l).1 hl)
        · intro a b e
          rw [h.graph] at e ⊢
          rw [h.entry]
          exact hall.2 a b e
      entry := by
        intro j i e hi
        rw [h.entry] at e
        rcases inst_cases h .refl e with ⟨v, h1, -, -⟩ | ⟨-, i0, h1, h2⟩
        · rw [vs_entry h hent] at h1
          simp at h1
        · exact hph _ _ _ h1 (by rw [h2] at hi; simpa [renInst] using hi)
      cover := fun l j i e hi p hp => ((hpc l j i e hi).2 p).2 hp
      nodes := by
        intro l hl
        rw [h.graph] at hl
        exact (block_some h l).2 (hn l hl)
      taken := by
        intro l j i e hi s hs
        have hl := block_reach h hall e
        rw [h.graph] at hs
        rcases inst_cases h hl e with ⟨v, -, -, rfl⟩ | ⟨-, i0, h1, h2⟩
        · cases hi
        · rw [h2] at hi ⊢
          exact ht _ _ _ h1 (by simpa [renInst] using hi) s hs }

/-- **C72**, partial: simplifying the phis of a program in SSA form does not panic.  It gives a program in SSA
form with the same graph and block labels, whose phis have exactly one entry for each predecessor; it reports a
change exactly if there is one; doing it again changes nothing; and both programs pass through the same blocks
with the same world at all times, whatever the operations do.
Missing: programs with phis in the entry (`C72_entry_violated`). -/
theorem C72_partial (c : Cfg) (P : SsaProgram c) :
    ∃ (c' : Cfg) (b : Bool), simplifyPhis c = some (c', b) ∧ SsaProgram c' ∧ PhisComplete c' ∧
      c'.graph = c.graph ∧ c'.entry = c.entry ∧ c'.bblocks.map (·.1) = c.bblocks.map (·.1) ∧
      (b = false ↔ c' = c) ∧ simplifyPhis c' = some (c', false) ∧ SameRuns c c' := by
  obtain ⟨c', b, h1, s, hk, hb⟩ := simplifyPhis_ok P
  refine ⟨c', b, h1, simp_program P s hk, simp_complete P s, s.1, s.2.1, hk, hb, simp_idem P s hk, ?_⟩
  intro V W I e w m
  obtain ⟨h1, h2, -⟩ := simp_run (I := I) P s e w m
  exact ⟨h1, h2⟩

/-- **C73**, partial: removing branches on constants and branches with one target from a program in SSA form,
with the blocks that become unreachable, comes to an end without panic, whatever the program; the result is in
SSA form, its phis have exactly one entry for each predecessor, all its branches depend on values that are not
constants and have two targets, and nothing but branches has two successors if that was so before; and if no
branch is on a BigInt constant, both programs pass through the same blocks with the same world at all times, for
all operations that agree with JavaScript on the truth of constants.
Missing: branches on BigInt constants (`C73_bigint_violated`) and programs with phis in the entry. -/
theorem C73_partial (c : Cfg) (P : SsaProgram c) :
    ∃ (n : Nat) (c' : Cfg), (∀ fuel, n ≤ fuel → impossibleBranches fuel c = some c') ∧
      SsaProgram c' ∧ PhisComplete c' ∧ BranchesOpen c' ∧ c'.entry = c.entry ∧
      (NoBigIntBranch c → SameRunsConst c c') ∧ simplifyPhis c' = some (c', false) ∧
      (OnlyBranchesFork c → OnlyBranchesFork c') := by
  obtain ⟨c', h⟩ := loop_ok _ P (Nat.le_refl _)
  exact ⟨_, c', h⟩

/-! ## Concrete programs -/

def programB (c : Cfg) (n : Nat) : Bool :=
  wfB c && ssaB c &&
  (c.bblocks.map (·.1) ++ c.graph.edges.map (·.1)).all (fun l => l ∈ spread c.graph n [c.entry]) &&
  (allAt c).all (fun x => (x.2.2.t != .phi || (x.1 != c.entry &&
      c.graph.edges.all (fun e => e.2 != x.1 || x.2.2.labels.contains e.1))) &&
    (x.2.2.t != .condGoto || c.graph.edges.all (fun e => e.1 != x.1 || x.2.2.labels.contains e.2))) &&
  c.graph.labels.all (fun l => (Cfg.block c l).isSome)

theorem program_of {c : Cfg} {n : Nat} {ops : List Op} (hg : Graph.run ops = some c.graph)
    (h : programB c n = true) : SsaProgram c := by
  simp only [programB, Bool.and_eq_true] at h
  obtain ⟨⟨⟨⟨h1, h2⟩, h3⟩, h5⟩, h6⟩ := h
  have h7 := forall_at (c := c) (P := fun l _ i => (i.t = .phi → l ≠ c.entry ∧ ∀ p, c.graph.Edge p l → p ∈ i.labels) ∧
      (i.t = .condGoto → ∀ s, c.graph.Edge l s → s ∈ i.labels)) (by
    intro x hx
    have := List.all_eq_true.1 h5 x hx
    simp only [Bool.and_eq_true, Bool.or_eq_true, bne_iff_ne, List.all_eq_true, List.contains_iff_mem] at this
    refine ⟨?_, ?_⟩
    · intro ht
      rcases this.1 with h | ⟨h, h'⟩
      · exact absurd ht h
      · exact ⟨h, fun p hp => (h' _ (edge_mem hp)).resolve_left (by simp)⟩
    · intro ht s hs
      rcases this.2 with h | h
      · exact absurd ht h
      · exact (h _ (edge_mem hs)).resolve_left (by simp))
  exact
    { graph := ⟨ops, hg⟩
      wf := wf_of h1
      ssa := ssa_of h2
      reach := allReachable_of h3
      entry := fun k i e ht => ((h7 _ _ _ e).1 ht).1 rfl
      cover := fun l k i e ht => ((h7 _ _ _ e).1 ht).2
      nodes := fun l hl => List.all_eq_true.1 h6 l (contains_iff.1 hl)
      taken := fun l k i e ht => (h7 _ _ _ e).2 ht }

theorem noBigInt_of {c : Cfg} (h : (allAt c).all (fun x => x.2.2.t != .condGoto || x.2.2.args.all
    (fun a => match a with | .const (.bigint _) => false | _ => true)) = true) : NoBigIntBranch c := by
  refine forall_at (P := fun _ _ i => i.t = .condGoto → ∀ v, Arg.const (.bigint v) ∉ i.args) ?_
  intro x hx ht v hv
  have := List.all_eq_true.1 h x hx
  simp only [ht, bne_self_eq_false, Bool.false_or, List.all_eq_true] at this
  simpa using this _ hv

theorem complete_of {c : Cfg} {ops : List Op} (hg : Graph.run ops = some c.graph)
    (h : (allAt c).all (fun x => x.2.2.t != .phi ||
      (decide (x.2.2.labels.Pairwise (fun a b : Nat => a < b)) &&
        (x.2.2.labels.all (fun p => (c.graph.children p).contains x.1) &&
        (c.graph.parents x.1).all (fun p => x.2.2.labels.contains p)))) = true) : PhisComplete c := by
  refine forall_at (P := fun l _ i => i.t = .phi → i.labels.Pairwise (fun a b : Nat => a < b) ∧
    ∀ p, p ∈ i.labels ↔ c.graph.Edge p l) ?_
  intro x hx ht
  have := List.all_eq_true.1 h x hx
  simp only [ht, bne_self_eq_false, Bool.false_or, Bool.and_eq_true, decide_eq_true_eq, List.all_eq_true,
    List.contains_iff_mem] at this
  refine ⟨this.1, fun p => ⟨fun hp => this.2.1 p hp, fun hp => this.2.2 p ((parents_iff ⟨ops, hg⟩ p _).2 hp)⟩⟩

/-- The truth of constants as in JavaScript; otherwise as `demoInterp`. -/
def truthInterp : Interp Arg (Arg × List (List Arg)) where
  lit := id
  op := demoInterp.op
  truthy := fun v => match v with
    | .const (.bigint v) => v != 0
    | .const (.bool b) => b
    | .const (.num b) => !(b % 2 ^ 63 == 0) && !(2047 * 2 ^ 52 < b % 2 ^ 63)
    | .const (.str s) => s != []
    | .const _ => false
    | _ => true

theorem truth_const : ConstTruth truthInterp := by
  intro k
  cases k <;> simp [truthInterp, Falsy]

/-- The calls a program makes in its first `n` blocks. -/
def calls (c : Cfg) (n : Nat) : List (List Arg) :=
  (Opt.run truthInterp c (fun _ => .const .undefined) (.const .undefined, []) n).world.2

/-- A phi with an entry for a block that is no predecessor, and one for the only predecessor. -/
def stale : Cfg where
  graph := (((Graph.new.connect 0 1).connect 0 2).connect 1 2).connect 2 3
  entry := 0
  bblocks := [
    (0, [Inst.call (some 1) (.builtin [103]) (.const .undefined) [] [], Inst.condGoto (.var 1) 1 2]),
    (1, [Inst.varAssign 2 (.const (.num 5))]),
    (2, [Inst.phi 3 [(0, .const (.num 7)), (1, .var 2), (9, .const .null)]]),
    (3, [Inst.phi 4 [(2, .var 3)], Inst.phi 5 [(1, .const .null), (2, .const (.num 8))],
      Inst.call none (.builtin [102]) (.const .undefined) [.var 4, .var 5] []])]

example : SsaProgram stale :=
  program_of (n := 3) (ops := [.connect 0 1, .connect 0 2, .connect 1 2, .connect 2 3]) (by decide +kernel)
    (by decide +kernel)

example : (simplifyPhis stale).map (fun r => (r.2, blockOf r.1 2, blockOf r.1 3)) =
    some (true, [Inst.phi 3 [(0, .const (.num 7)), (1, .var 2)]],
      [Inst.varAssign 4 (.var 3), Inst.varAssign 5 (.const (.num 8)),
        Inst.call none (.builtin [102]) (.const .undefined) [.var 4, .var 5] []]) := by decide +kernel

example : calls stale 4 = [[.builtin [103], .const .undefined],
    [.builtin [102], .const .undefined, .const (.num 7), .const (.num 8)]] := by decide +kernel

/-- `if (0) { a(); x = 5; if (a()) b() } else x = 7; f(x); if (…) {}`. -/
def constBranch : Cfg where
  graph := ((((((Graph.new.connect 0 1).connect 0 3).connect 1 2).connect 1 3).connect 2 3).connect 3 4)
  entry := 0
  bblocks := [
    (0, [Inst.condGoto (.const (.num 0)) 1 3]),
    (1, [Inst.call (some 1) (.builtin [97]) (.const .undefined) [] [], Inst.condGoto (.var 1) 2 3]),
    (2, [Inst.call none (.builtin [98]) (.const .undefined) [] []]),
    (3, [Inst.phi 2 [(0, .const (.num 7)), (1, .var 1), (2, .const (.num 5))],
      Inst.call (some 3) (.builtin [102]) (.const .undefined) [.var 2] [], Inst.condGoto (.var 3) 4 4]),
    (4, [Inst.call none (.builtin [103]) (.const .undefined) [.const (.num 1)] []])]

example : SsaProgram constBranch :=
  program_of (n := 3) (ops := [.connect 0 1, .connect 0 3, .connect 1 2, .connect 1 3, .connect 2 3, .connect 3 4])
    (by decide +kernel) (by decide +kernel)

example : NoBigIntBranch constBranch :=
  noBigInt_of (by decide +kernel)

example : (impossibleBranches 10 constBranch).map (fun c => c.bblocks) = some [
    (0, []),
    (3, [Inst.varAssign 2 (.const (.num 7)), Inst.call (some 3) (.builtin [102]) (.const .undefined) [.var 2] []]),
    (4, [Inst.call none (.builtin [103]) (.const .undefined) [.const (.num 1)] []])] := by decide +kernel

example : calls constBranch 3 = [[.builtin [102], .const .undefined, .const (.num 7)],
    [.builtin [103], .const .undefined, .const (.num 1)]] := by decide +kernel

/-! ## Where the properties fail -/

/-- A loop whose head is the entry, with a phi for the value from the round before. -/
def entryPhi : Cfg where
  graph := (Graph.new.connect 0 0).connect 0 1
  entry := 0
  bblocks := [
    (0, [Inst.phi 1 [(0, .const (.num 5))],
      Inst.call (some 2) (.builtin [102]) (.const .undefined) [.var 1] [],
      Inst.condGoto (.var 2) 0 1]),
    (1, [])]

/-- **C72**, violated for an entry with a phi: the phi does not act in the first round, its copy does. -/
theorem C72_entry_violated :
    Graph.run [.connect 0 0, .connect 0 1] = some entryPhi.graph ∧
    WellFormed entryPhi ∧ AllReachable entryPhi ∧ PhisComplete entryPhi ∧
    calls entryPhi 1 = [[.builtin [102], .const .undefined, .const .undefined]] ∧
    (simplifyPhis entryPhi).map (fun r => calls r.1 1) =
      some [[.builtin [102], .const .undefined, .const (.num 5)]] := by
  exact ⟨by decide +kernel, wf_of (by decide +kernel), allReachable_of (n := 2) (by decide +kernel),
    complete_of (ops := [.connect 0 0, .connect 0 1]) (by decide +kernel) (by decide +kernel),
    by decide +kernel, by decide +kernel⟩

/-- `if (0n) a(); else b();`. -/
def bigintBranch : Cfg where
  graph := (Graph.new.connect 0 1).connect 0 2
  entry := 0
  bblocks := [
    (0, [Inst.condGoto (.const (.bigint 0)) 1 2]),
    (1, [Inst.call none (.builtin [97]) (.const .undefined) [] []]),
    (2, [Inst.call none (.builtin [98]) (.const .undefined) [] []])]

/-- **C73**, violated for branches on BigInt constants: `if (0n) a(); else b();` calls `b`, the optimized program
calls `a`. -/
theorem C73_bigint_violated :
    SsaProgram bigintBranch ∧ ConstTruth truthInterp ∧
    calls bigintBranch 2 = [[.builtin [98], .const .undefined]] ∧
    (impossibleBranches 10 bigintBranch).map (fun c => calls c 2) = some [[.builtin [97], .const .undefined]] :=
  ⟨program_of (n := 2) (ops := [.connect 0 1, .connect 0 2]) (by decide +kernel) (by decide +kernel), truth_const,
    by decide +kernel, by decide +kernel⟩

end Verif.Ssa
