import Verif.Ssa.Sim
import Verif.Opt.Theorems
/-!
# Entering SSA: C71

`Spec` of this directory and of `Opt` say what strict SSA, well-formed programs and runs are.
-/

namespace Verif.Ssa

open Verif.Il Verif.Graph Verif.Dom Verif.Opt

section
variable {V W : Type}

/-- **C71**, partial: for a well-formed program without phis whose blocks are all reachable and whose entry is
not the target of a jump, and with a counter beyond all its variables, placing phis and renaming does not
panic; the result is well-formed, in strict SSA form and has the same blocks and edges; its phis have one
entry for each predecessor; no name reaches the counter returned; and it runs through the same blocks with the
same world at all times, whatever the operations do.
Missing: programs whose entry is the target of a jump (`C71_entry_violated`) or with unreachable blocks (the
pass panics on a join with an unreachable predecessor, `C61_unreachable_violated`). -/
theorem C71_partial (I : Interp V W) (c : Cfg) (ops : List Op) (hg : Graph.run ops = some c.graph) (n fuel : Nat)
    (wf : WellFormed c) (hph : NoPhis c) (hall : AllReachable c) (hent : FreshEntry c) (below : VarsBelow c n)
    (hf : c.bblocks.length + c.graph.labels.length + 3 ≤ fuel) :
    ∃ (c' : Cfg) (n' : Nat), construct fuel c n = some (c', n') ∧
      WellFormed c' ∧ StrictSSA c' ∧ PhisComplete c' ∧ VarsBelow c' n' ∧
      c'.graph = c.graph ∧ c'.entry = c.entry ∧ c'.bblocks.map (·.1) = c.bblocks.map (·.1) ∧
      ∀ (e : Nat → V) (w : W) (m : Nat),
        (Opt.run I c' e w m).at_ = (Opt.run I c e w m).at_ ∧
        (Opt.run I c' e w m).world = (Opt.run I c e w m).world := by
  obtain ⟨c', n', vs, σ, k, E, hc, h⟩ := construct_cert hg wf hph hall.1 hall.2 hent (N := n) hf
  obtain ⟨d, -, t⟩ := calculateDom_tree ops c.graph hg c.entry fuel (by omega)
  refine ⟨c', n', hc, wellFormed h wf hph hall, ssa h hph hall hent below t, phis_complete h hph hall,
    vars_below h hph hall below t, h.graph, h.entry, h.keys, ?_⟩
  intro e w m
  obtain ⟨h1, h2, -⟩ := sim_run (I := I) h wf hph hall hent below t e w m
  exact ⟨h1.symm, h2.symm⟩

/-- **C71**, partial: entering SSA and leaving it again at once gives a program without phis that passes, in
order, through the states of the original program (the copies on an edge take one additional block, which
changes nothing but variables), whatever the operations do.  So `C31_swap_violated` needs an optimisation in
between.  Missing as for `C71_partial`. -/
theorem C71_there_and_back_partial (I : Interp V W) (c : Cfg) (ops : List Op) (hg : Graph.run ops = some c.graph)
    (n fuel m : Nat) (wf : WellFormed c) (hph : NoPhis c) (hall : AllReachable c) (hent : FreshEntry c)
    (below : VarsBelow c n) (labels : LabelsBelow c m)
    (hf : c.bblocks.length + c.graph.labels.length + 3 ≤ fuel) :
    ∃ (c1 c2 : Cfg) (n' m' : Nat), construct fuel c n = some (c1, n') ∧ deconstruct c1 m = some (c2, m') ∧
      NoPhis c2 ∧
      ∀ (e : Nat → V) (w : W), ∃ f : Nat → Nat, f 0 = 0 ∧
        (∀ k : Nat, f (k + 1) = f k + 1 ∨ (f (k + 1) = f k + 2 ∧
          (Opt.run I c2 e w (f k + 1)).world = (Opt.run I c2 e w (f (k + 1))).world)) ∧
        (∀ k : Nat, (Opt.run I c2 e w (f k)).at_ = (Opt.run I c e w k).at_ ∧
          (Opt.run I c2 e w (f k)).world = (Opt.run I c e w k).world) := by
  obtain ⟨c', n', vs, σ, k, E, hc, h⟩ := construct_cert hg wf hph hall.1 hall.2 hent (N := n) hf
  obtain ⟨d, -, t⟩ := calculateDom_tree ops c.graph hg c.entry fuel (by omega)
  have wf' := wellFormed h wf hph hall
  have parents : PhiParents c' := by
    intro l j i p e ht hp
    have he := ((phis_complete h hph hall l j i e ht).2 p).1 hp
    refine ⟨he, ?_⟩
    rw [h.graph] at he
    rw [block_some h]
    exact block_of_reach wf (hall.2 p l he)
  have labels' : LabelsBelow c' m := ⟨by rw [h.keys]; exact labels.1, by rw [h.graph]; exact labels.2⟩
  obtain ⟨c2, m', h1, -, h2, h3⟩ := C31_partial I c' ops (by rw [h.graph]; exact hg) m wf' parents
    (noClobber h hph hall below t) labels'
  refine ⟨c', c2, n', m', hc, h1, h2, ?_⟩
  intro e w
  obtain ⟨f, g1, g2, g3⟩ := h3 e w
  refine ⟨f, g1, ?_, ?_⟩
  · intro q
    rcases g2 q with q1 | ⟨q1, q2, -⟩
    · exact .inl q1
    · exact .inr ⟨q1, q2⟩
  · intro q
    obtain ⟨r1, r2, -⟩ := sim_run (I := I) h wf hph hall hent below t e w q
    rw [g3 q]
    exact ⟨r1.symm, r2.symm⟩

end

/-! ## A concrete program -/

/-- `x = 0; while (y = g()) { if (y) { x = x + 1 } else { z = x } }; f(x, z)`. -/
def demo : Cfg where
  graph := ((((((Graph.new.connect 0 1).connect 1 2).connect 1 5).connect 2 3).connect 2 4).connect 3 1).connect 4 1
  entry := 0
  bblocks := [
    (0, [Inst.varAssign 0 (.const (.num 0))]),
    (1, [Inst.call (some 1) (.builtin [103]) (.const .undefined) [] [], Inst.condGoto (.var 1) 2 5]),
    (2, [Inst.condGoto (.var 1) 3 4]),
    (3, [Inst.bin 0 (.var 0) .add (.const (.num 1))]),
    (4, [Inst.varAssign 2 (.var 0)]),
    (5, [Inst.call none (.builtin [102]) (.const .undefined) [.var 0, .var 2] []])]

def demoGraphOps : List Op :=
  [.connect 0 1, .connect 1 2, .connect 1 5, .connect 2 3, .connect 2 4, .connect 3 1, .connect 4 1]

/-- The labels reached from `s` in `n` rounds. -/
def spread (g : Graph) : Nat → List Nat → List Nat
  | 0, s => s
  | n + 1, s => spread g n (s ++ s.flatMap g.children)

theorem spread_reach {g : Graph} {a : Nat} : ∀ {n : Nat} {s : List Nat}, (∀ x ∈ s, Reach g.Edge a x) →
    ∀ x ∈ spread g n s, Reach g.Edge a x
  | 0, _, h => h
  | n + 1, s, h => by
    refine spread_reach (n := n) ?_
    intro x hx
    rcases List.mem_append.1 hx with hx | hx
    · exact h x hx
    · obtain ⟨y, hy, hx⟩ := List.mem_flatMap.1 hx
      exact .step (h y hy) hx

theorem edge_mem {g : Graph} {a b : Nat} (h : g.Edge a b) : (a, b) ∈ g.edges := by
  simp only [Graph.Edge, Graph.children] at h
  cases hg : g.get a with
  | none => rw [hg] at h; cases h
  | some n =>
    rw [hg] at h
    simp only [Graph.edges, List.mem_flatMap, List.mem_map, Prod.mk.injEq]
    exact ⟨(a, n), lookup_mem hg, b, h, rfl, rfl⟩

theorem allReachable_of {c : Cfg} {n : Nat}
    (h : (c.bblocks.map (·.1) ++ c.graph.edges.map (·.1)).all (fun l => l ∈ spread c.graph n [c.entry]) = true) :
    AllReachable c := by
  have key : ∀ l ∈ c.bblocks.map (·.1) ++ c.graph.edges.map (·.1), Reach c.graph.Edge c.entry l := by
    intro l hl
    have := List.all_eq_true.1 h l hl
    simp only [decide_eq_true_eq] at this
    refine spread_reach ?_ l this
    intro x hx
    simp only [List.mem_singleton] at hx
    rw [hx]
    exact .refl
  refine ⟨?_, ?_⟩
  · intro l hl
    exact key l (List.mem_append_left _ (lookup_isSome_iff.1 hl))
  · intro x y e
    exact key x (List.mem_append_right _ (List.mem_map.2 ⟨_, edge_mem e, rfl⟩))

theorem freshEntry_of {c : Cfg} (h : c.entry ∉ c.graph.edges.map (·.2)) : FreshEntry c :=
  fun _ e => h (List.mem_map.2 ⟨_, edge_mem e, rfl⟩)

def varsBelowB (c : Cfg) (n : Nat) : Bool :=
  (allAt c).all (fun x => x.2.2.tgts.all (· < n) && x.2.2.args.all (fun a => match a with | .var v => v < n | _ => true))

theorem varsBelow_of {c : Cfg} {n : Nat} (h : varsBelowB c n = true) : VarsBelow c n := by
  refine forall_at (P := fun _ _ i => (∀ v ∈ i.tgts, v < n) ∧ ∀ v, Arg.var v ∈ i.args → v < n) ?_
  intro x hx
  have := List.all_eq_true.1 h x hx
  simp only [Bool.and_eq_true, List.all_eq_true, decide_eq_true_eq] at this
  exact ⟨this.1, fun v hv => by simpa using this.2 _ hv⟩

theorem noPhis_of {c : Cfg} (h : (allAt c).all (fun x => x.2.2.t != .phi) = true) : NoPhis c := by
  refine forall_at (P := fun _ _ i => i.t ≠ .phi) ?_
  intro x hx
  have := List.all_eq_true.1 h x hx
  simpa using this

example : Graph.run demoGraphOps = some demo.graph := by decide +kernel
example : WellFormed demo := wf_of (by decide +kernel)
example : NoPhis demo := noPhis_of (by decide +kernel)
example : VarsBelow demo 3 := varsBelow_of (by decide +kernel)
example : LabelsBelow demo 6 := below_of (by decide +kernel)

example : AllReachable demo := allReachable_of (n := 4) (by decide +kernel)
example : FreshEntry demo := freshEntry_of (by decide +kernel)

/-- Three variables get a phi at the head of the loop; after it the names are those of the phis. -/
example : (construct 20 demo 3).map (fun r => (r.2, blockOf r.1 1, blockOf r.1 4, blockOf r.1 5)) =
    some (10, [Inst.phi 4 [(0, .var 2), (3, .var 4), (4, .var 9)],
        Inst.phi 5 [(0, .var 1), (3, .var 7), (4, .var 7)],
        Inst.phi 6 [(0, .var 3), (3, .var 8), (4, .var 6)],
        Inst.call (some 7) (.builtin [103]) (.const .undefined) [] [], Inst.condGoto (.var 7) 2 5],
      [Inst.varAssign 9 (.var 6)],
      [Inst.call none (.builtin [102]) (.const .undefined) [.var 6, .var 4] []]) := by decide +kernel

/-! ## Where the property fails -/

/-- `do { f(x); x = 1 } while (1)`, with the head of the loop as the entry. -/
def entryLoop : Cfg where
  graph := (Graph.new.connect 0 0).connect 0 1
  entry := 0
  bblocks := [
    (0, [Inst.call none (.builtin [102]) (.const .undefined) [.var 0] [],
      Inst.varAssign 0 (.const (.num 1)),
      Inst.condGoto (.const (.num 1)) 0 1]),
    (1, [])]

/-- **C71**, violated for programs whose entry is the target of a jump: the entry gets no phi, and the second
call reads the variable as it was at the start.  (The translation of statements never makes such a program:
the entry is the block before the first label.) -/
theorem C71_entry_violated :
    Graph.run [.connect 0 0, .connect 0 1] = some entryLoop.graph ∧
    WellFormed entryLoop ∧ NoPhis entryLoop ∧ AllReachable entryLoop ∧ VarsBelow entryLoop 1 ∧
    demoCalls entryLoop 2 = [[.builtin [102], .const .undefined, .const .undefined],
      [.builtin [102], .const .undefined, .const (.num 1)]] ∧
    (construct 20 entryLoop 1).map (fun r => demoCalls r.1 2) =
      some [[.builtin [102], .const .undefined, .const .undefined],
        [.builtin [102], .const .undefined, .const .undefined]] :=
  ⟨by decide +kernel, wf_of (by decide +kernel), noPhis_of (by decide +kernel),
    allReachable_of (n := 2) (by decide +kernel), varsBelow_of (by decide +kernel), by decide +kernel,
    by decide +kernel⟩

end Verif.Ssa
