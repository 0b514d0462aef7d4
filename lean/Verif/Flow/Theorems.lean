import Mathlib.Data.Bool.Basic
import Verif.Flow.Fix
import Verif.Flow.Live
/-!
# Dataflow analyses, liveness and register assignment: C29, C30

C29 as stated ("satisfies the equations of every reachable block") is false of the code: the solver only
looks at the boundary block and at blocks one of whose inputs has changed, so a block whose inputs stay at
`bottom` is never evaluated.  `C29_violated` and `C29_liveness_violated` are the counterexamples, the
`_partial` theorems say exactly what does hold.  C30 holds of the allocator, but the liveness it is fed from
is the one of C29: `C30_clobber_violated` and `C30_dead_target_violated`.
-/

namespace Verif.Flow

open Verif.Graph Verif.Il

section
variable {σ : Type} [DecidableEq σ]

/-! ## C29: the solver -/

/-- **C29**, termination: a monotone analysis over a lattice of finite height stops. -/
theorem C29_terminates [PartialOrder σ] (a : Analysis σ) (f : FlowGraph) (boundary n fuel : Nat)
    (mono : Mono a) (height : Height σ n) (good : Good f boundary)
    (hf : 2 * n * f.labels.length * f.labels.length + 1 ≤ fuel) :
    ∃ r : Blocks σ, runDataflow a f boundary fuel = some r := by
  obtain ⟨h, hs, hn⟩ := height
  refine loop_terminates mono good hs hn fuel _ [boundary] keys_init (by simp) ?_ ?_ ?_
  · intro l hl
    simp only [List.mem_singleton] at hl
    exact hl ▸ node_iff.2 good.boundary
  · intro l is _ _
    rw [at_init]
    exact ⟨mono.least _, mono.least _⟩
  · have := room_bound (h := h) (n := n) (x := at' a.bottom (initBlocks a f)) (ls := f.labels)
    have := Nat.mul_le_mul_right f.labels.length this
    simp only [List.length_cons, List.length_nil]
    omega

/-- **C29**, partial: every place has a state, and the state satisfies the equation of the place — except
that a place other than the boundary may be left at `bottom` when all its inputs are at `bottom`, although
its equation may ask for more.  No monotonicity is needed. -/
theorem C29_solution_partial (a : Analysis σ) (f : FlowGraph) (boundary fuel : Nat) (good : Good f boundary)
    (r : Blocks σ) (h : runDataflow a f boundary fuel = some r) :
    (r.map (·.1)).Nodup ∧ (∀ l : Nat, Node f l ↔ ∃ s : BlockState σ, (l, s) ∈ r) ∧
    ∀ l : Nat, Node f l → Solves a f boundary (at' a.bottom r) l ∨
      (l ≠ boundary ∧ at' a.bottom r l = ⟨a.bottom, a.bottom⟩ ∧
        ∀ p : Nat, Flows f p l → at' a.bottom r p = ⟨a.bottom, a.bottom⟩) := by
  obtain ⟨hk, hs⟩ := run_settled good h
  refine ⟨hk ▸ nodup_labels, ?_, ?_⟩
  · intro l
    rw [← node_iff, ← hk]
    simp only [List.mem_map, Prod.exists, exists_and_right, exists_eq_right]
  · intro l hl
    rcases hs l (node_iff.2 hl) with he | ⟨h1, h2, h3⟩
    · exact Or.inl (solves_iff.1 he)
    · exact Or.inr ⟨h1, h2, fun p hp => h3 p (flows_iff.2 hp)⟩

/-- **C29**, partial: when `bottom` stays `bottom` through merges and instructions, every equation holds. -/
theorem C29_strict_partial (a : Analysis σ) (f : FlowGraph) (boundary fuel : Nat) (good : Good f boundary)
    (strictMeet : ∀ ps : List Nat, a.meet (ps.map (fun p => (p, a.bottom))) = a.bottom)
    (strictInst : ∀ (l k : Nat) (i : Inst), a.applyInst l k i a.bottom = a.bottom)
    (r : Blocks σ) (h : runDataflow a f boundary fuel = some r) (l : Nat) (hl : Node f l) :
    Solves a f boundary (at' a.bottom r) l := by
  obtain ⟨_, hs⟩ := run_settled good h
  rw [← node_iff] at hl
  rw [← solves_iff]
  rcases hs l hl with he | ⟨hne, hx, hp⟩
  · exact he
  · obtain ⟨is, his⟩ := good.block hl
    refine ⟨is, his, ?_⟩
    have hin : incoming a f boundary (at' a.bottom r) l = a.bottom := by
      unfold incoming
      rw [if_neg hne]
      have : (f.predecessors l).map (fun p => (p, outSide a.direction (at' a.bottom r p))) =
          (f.predecessors l).map (fun p => (p, a.bottom)) := by
        apply List.map_congr_left
        intro p hp'
        rw [hp p hp']
        cases a.direction <;> rfl
      rw [this, strictMeet]
    have hf : ∀ (is : List Inst) (k : Nat), applyForward (a.applyInst l) k is a.bottom = a.bottom := by
      intro is
      induction is with
      | nil => intro k; rfl
      | cons i is ih => intro k; rw [applyForward, strictInst, ih]
    have hb : ∀ (is : List Inst) (k : Nat), applyBackward (a.applyInst l) k is a.bottom = a.bottom := by
      intro is
      induction is with
      | nil => intro k; rfl
      | cons i is ih => intro k; rw [applyBackward, ih, strictInst]
    have hab : a.applyBlock l is a.bottom = a.bottom := by
      unfold Analysis.applyBlock
      split
      · exact hf is 0
      · exact hb is 0
    unfold rhs
    rw [hx, hin, hab]
    cases a.direction <;> rfl

/-- **C29**, partial: when a block never sends `bottom` on, the equations hold at every place information
from the boundary can flow to. -/
theorem C29_reachable_partial (a : Analysis σ) (f : FlowGraph) (boundary fuel : Nat) (good : Good f boundary)
    (noBottom : ∀ (l : Nat) (is : List Inst) (s : σ), Contents f l is → through a l is s ≠ a.bottom)
    (r : Blocks σ) (h : runDataflow a f boundary fuel = some r) (l : Nat) (hl : Node f l)
    (hr : FlowReach f boundary l) : Solves a f boundary (at' a.bottom r) l := by
  obtain ⟨_, hs⟩ := run_settled good h
  rw [← node_iff] at hl
  rw [← solves_iff]
  induction hr with
  | boundary =>
    rcases hs _ hl with he | ⟨hne, _⟩
    · exact he
    · exact absurd rfl hne
  | step hp hm ih =>
    have hm := flows_iff.2 hm
    rcases hs _ hl with he | ⟨_, _, hb⟩
    · exact he
    · exfalso
      obtain ⟨is, his, hx⟩ := ih (good.pred_label hm)
      rw [hb _ hm] at hx
      unfold rhs at hx
      rw [applyBlock_through] at hx
      generalize hd : a.direction = d at hx
      cases d with
      | forward => exact noBottom _ is _ (contents_iff.1 his) (congrArg BlockState.exit hx).symm
      | backward => exact noBottom _ is _ (contents_iff.1 his) (congrArg BlockState.entry hx).symm

/-- **C29**, leastness: the result lies below every solution of the equations. -/
theorem C29_least [PartialOrder σ] (a : Analysis σ) (f : FlowGraph) (boundary fuel : Nat)
    (mono : Mono a) (good : Good f boundary) (r : Blocks σ) (h : runDataflow a f boundary fuel = some r)
    (x : Nat → BlockState σ) (hx : ∀ l : Nat, Node f l → Solves a f boundary x l)
    (l : Nat) (hl : Node f l) : LE' (at' a.bottom r l) (x l) := by
  refine loop_below mono good ?_ fuel _ [boundary] r keys_init ?_ ?_ h l (node_iff.2 hl)
  · intro m is hm his
    obtain ⟨is', his', e⟩ := solves_iff.2 (hx m (node_iff.1 hm))
    rw [his] at his'
    obtain rfl := Option.some.inj his'
    rw [← e]
    exact ⟨le_refl _, le_refl _⟩
  · intro m hm
    simp only [List.mem_singleton] at hm
    exact hm ▸ node_iff.2 good.boundary
  · intro m _
    rw [at_init]
    exact ⟨mono.least _, mono.least _⟩

end

/-! ### Sample runs -/

/-- Blocks 0 → 1 → 2 and 1 → 1; block 1 makes a call. -/
def sampleCfg : Il.Cfg :=
  { graph := ((run [.connect 0 1, .connect 1 1, .connect 1 2]).getD Graph.new)
    bblocks := [(0, [Inst.varAssign 0 (.const .null)]), (1, [Inst.call none (.var 0) (.var 0) [] []]), (2, [])]
    entry := 0 }

/-- Whether a call may have been made: a forward analysis over `false ≤ true`. -/
def callSeen (start : Bool) : Analysis Bool :=
  { direction := .forward, bottom := false, boundaryState := start
    meet := fun ps => ps.any (·.2)
    applyInst := fun _ _ i s => s || (i.t == .call) }

def sampleFlow : FlowGraph := ⟨sampleCfg, .forward, none⟩

theorem sampleFlow_good : Good sampleFlow 0 where
  history := ⟨[.connect 0 1, .connect 1 1, .connect 1 2], by decide +kernel⟩
  blocks := by
    have h : ∀ l ∈ sampleFlow.cfg.graph.labels, (Cfg.block sampleFlow.cfg l).isSome = true := by decide +kernel
    intro l hl
    exact Option.isSome_iff_exists.1 (h l hl)
  boundary := node_iff.1 (by decide +kernel)
  exitNew := by intro e h; cases h

theorem callSeen_mono (b : Bool) : Mono (callSeen b) where
  least := by intro s; show false ≤ s; cases s <;> decide
  inst := by
    intro l k i s t h
    simp only [callSeen]
    cases s <;> cases t <;> cases (i.t == InstTyp.call) <;> revert h <;> decide
  meet := by
    intro ps x y h
    simp only [callSeen, List.any_map]
    induction ps with
    | nil => exact le_refl _
    | cons p ps ih =>
      simp only [List.any_cons, Function.comp]
      have h1 := h p (by simp)
      have h2 := ih (fun q hq => h q (by simp [hq]))
      revert h1 h2
      generalize x p = a
      generalize y p = b
      generalize ps.any _ = c
      generalize ps.any _ = d
      cases a <;> cases b <;> cases c <;> cases d <;> decide

theorem bool_height : Height Bool 1 :=
  ⟨fun b => if b then 1 else 0, by decide, by decide⟩

/-- The hypotheses of `C29_terminates`, `C29_solution_partial` and `C29_least` are met. -/
example : ∃ r : Blocks Bool, runDataflow (callSeen true) sampleFlow 0 19 = some r :=
  C29_terminates (callSeen true) sampleFlow 0 1 19 (callSeen_mono true) bool_height sampleFlow_good
    (by decide +kernel)

example : runDataflow (callSeen true) sampleFlow 0 19 =
    some [(0, ⟨true, true⟩), (1, ⟨true, true⟩), (2, ⟨true, true⟩)] := by decide +kernel

/-- **C29 is violated**: a monotone analysis over a two-element lattice, on a graph in which every block is
reachable from the boundary, stops with a result that does not satisfy the equation of block 1. -/
theorem C29_violated : ∃ (a : Analysis Bool) (f : FlowGraph) (boundary l : Nat) (r : Blocks Bool),
    Mono a ∧ Height Bool 1 ∧ Good f boundary ∧ (∀ fuel : Nat, 1 ≤ fuel → runDataflow a f boundary fuel = some r) ∧
    Node f l ∧ FlowReach f boundary l ∧ ¬ Solves a f boundary (at' a.bottom r) l := by
  refine ⟨callSeen false, sampleFlow, 0, 1, [(0, ⟨false, false⟩), (1, ⟨false, false⟩), (2, ⟨false, false⟩)],
    callSeen_mono false, bool_height, sampleFlow_good, ?_, node_iff.1 (by decide +kernel),
    .step .boundary (flows_iff.1 (by decide +kernel)), ?_⟩
  · intro fuel h
    obtain ⟨n, rfl⟩ : ∃ n, fuel = n + 1 := ⟨fuel - 1, by omega⟩
    have h1 : newState (callSeen false) sampleFlow 0 (initBlocks (callSeen false) sampleFlow) 0 =
        some ⟨false, false⟩ := by decide +kernel
    have h2 : (initBlocks (callSeen false) sampleFlow).lookup 0 = some ⟨false, false⟩ := by decide +kernel
    have h3 : initBlocks (callSeen false) sampleFlow =
        [(0, ⟨false, false⟩), (1, ⟨false, false⟩), (2, ⟨false, false⟩)] := by decide +kernel
    unfold runDataflow loop
    rw [h1, h2]
    simp only [↓reduceIte, ← h3]
    cases n <;> rfl
  · rw [← solves_iff]
    rintro ⟨is, his, hx⟩
    have e : sampleFlow.block 1 = some [Inst.call none (.var 0) (.var 0) [] []] := by decide +kernel
    rw [e] at his
    obtain rfl := Option.some.inj his
    revert hx
    decide +kernel

/-- The hypotheses of `C29_reachable_partial` are met by an analysis whose `bottom` means "not reached". -/
def reached : Analysis Bool :=
  { direction := .forward, bottom := false, boundaryState := true
    meet := fun _ => true
    applyInst := fun _ _ _ _ => true }

def reachedFlow : FlowGraph :=
  ⟨{ sampleCfg with bblocks := [(0, [Inst.propAssign (.var 0) (.var 0) (.var 0)]),
      (1, [Inst.propAssign (.var 0) (.var 0) (.var 0)]), (2, [Inst.propAssign (.var 0) (.var 0) (.var 0)])] },
    .forward, none⟩

example (l : Nat) (is : List Inst) (s : Bool) (h : Contents reachedFlow l is) :
    through reached l is s ≠ reached.bottom := by
  rcases h with ⟨e, he, _⟩ | ⟨_, h⟩
  · cases he
  · have h := mem_of_lookup h
    have hall : ∀ e ∈ reachedFlow.cfg.bblocks, ∀ s : Bool, through reached e.1 e.2 s ≠ reached.bottom := by
      decide +kernel
    exact hall (l, is) h s

/-- The hypotheses of `C29_strict_partial` are met by a copy of `callSeen` that ignores instructions. -/
example : (∀ ps : List Nat, (callSeen true).meet (ps.map (fun p => (p, false))) = false) ∧
    ∀ (l k : Nat) (i : Inst), ({ callSeen true with applyInst := fun _ _ _ s => s } : Analysis Bool).applyInst l k i
      false = false := by
  constructor
  · intro ps
    simp [callSeen]
  · intro l k i
    rfl

/-! ## C29: liveness -/

/-- **C29**, liveness: on every control flow graph the liveness run stops at once with nothing live at any
block boundary.  (The boundary is the empty virtual exit, its state is `bottom`, nothing changes, and no
other block is ever evaluated.) -/
theorem C29_liveness_stuck (c : Il.Cfg) (sinks : List Nat) (lv : Liveness) (fuel : Nat) (hf : 1 ≤ fuel) :
    ∃ r : Blocks BitSet,
      runDataflow lv.analysis ⟨c, .backward, some (calculateVirtualExit c sinks)⟩
        (calculateVirtualExit c sinks).label fuel = some r ∧
      ∀ l : Nat, at' 0 r l = ⟨0, 0⟩ := by
  obtain ⟨n, rfl⟩ : ∃ n, fuel = n + 1 := ⟨fuel - 1, by omega⟩
  exact ⟨_, liveness_stuck lv c _ n, fun l => at_init (a := lv.analysis)⟩

/-- **C29**, partial: the live-in sets that are computed hold exactly the variables that are read later in
the same block before being written; there is one for every instruction of the graph that is not inlined. -/
theorem C29_live_partial (c : Il.Cfg) (sinks : List Nat) (inl : Inlines) (inlined : List Nat) (fuel : Nat)
    (live : List (Loc × List Nat)) (h : calculateLiveIns c sinks inl inlined fuel = some live) :
    (∀ (l k : Nat) (vs : List Nat), ((l, k), vs) ∈ live →
      vs.Nodup ∧ ∀ v : Nat, v ∈ vs ↔ LocalLive c inl inlined v l k) ∧
    (∀ l k : Nat, (∃ vs : List Nat, ((l, k), vs) ∈ live) ↔
      l ∈ c.graph.labels ∧ inl.lookup (l, k) = none ∧ ∃ i : Inst, instAt c (l, k) = some i) :=
  liveIns_spec h

/-- **C29**, partial: what is reported live is live (some path reads it before writing it), and when the
variable is not live at the start of any successor block, what is live is reported. -/
theorem C29_live_sound_partial (c : Il.Cfg) (sinks : List Nat) (inl : Inlines) (inlined : List Nat) (fuel : Nat)
    (live : List (Loc × List Nat)) (h : calculateLiveIns c sinks inl inlined fuel = some live)
    (l k : Nat) (vs : List Nat) (hm : ((l, k), vs) ∈ live) (v : Nat) :
    (v ∈ vs → LiveIn c inl inlined v (l, k)) ∧
    ((∀ m s : Nat, s ∈ c.graph.children m → ¬ LiveIn c inl inlined v (s, 0)) →
      LiveIn c inl inlined v (l, k) → v ∈ vs) := by
  obtain ⟨h1, _⟩ := liveIns_spec h
  obtain ⟨_, h2⟩ := h1 l k vs hm
  constructor
  · intro hv
    obtain ⟨j, i, hj, hi, hu, hn⟩ := (h2 v).1 hv
    exact localLive_liveIn (j - k) k j i (by omega) hi hu hn
  · intro hx hl
    exact (h2 v).2 (liveIn_local hx hl)

/-- Blocks 0 → 1 → 2.  Block 0 defines `v0` and `v1`, block 1 passes `v0` to a call, block 2 passes `v1`. -/
def clobberCfg : Il.Cfg :=
  { graph := ((run [.connect 0 1, .connect 1 2]).getD Graph.new)
    bblocks := [(0, [Inst.call (some 0) (.builtin [102]) (.const .undefined) [] [],
                     Inst.call (some 1) (.builtin [103]) (.const .undefined) [] []]),
                (1, [Inst.call none (.builtin [104]) (.const .undefined) [.var 0] []]),
                (2, [Inst.call none (.builtin [104]) (.const .undefined) [.var 1] []])]
    entry := 0 }

theorem clobber_live1 : LiveIn clobberCfg [] [] 1 (1, 0) := by
  refine .next (i := Inst.call none (.builtin [104]) (.const .undefined) [.var 0] []) (by decide +kernel) ?_ ?_
  · rintro ⟨i, hi, _, hv⟩
    have e : instAt clobberCfg (1, 0) = some (Inst.call none (.builtin [104]) (.const .undefined) [.var 0] []) := by
      decide +kernel
    rw [e] at hi
    obtain rfl := Option.some.inj hi
    simp [Inst.call] at hv
  · refine .jump (s := 2) (is := [Inst.call none (.builtin [104]) (.const .undefined) [.var 0] []])
      (by decide +kernel) (by decide +kernel) ?_
    refine .use (i := Inst.call none (.builtin [104]) (.const .undefined) [.var 1] []) (by decide +kernel) ?_
    exact Or.inl ⟨by simp, Inst.call none (.builtin [104]) (.const .undefined) [.var 1] [], by decide +kernel, rfl, by decide +kernel⟩

theorem clobber_live0 : LiveIn clobberCfg [] [] 0 (1, 0) := by
  refine .use (i := Inst.call none (.builtin [104]) (.const .undefined) [.var 0] []) (by decide +kernel) ?_
  exact Or.inl ⟨by simp, Inst.call none (.builtin [104]) (.const .undefined) [.var 0] [], by decide +kernel, rfl, by decide +kernel⟩

/-- **C29 is violated by liveness**: `v1` is live at the start of block 1 and not reported. -/
theorem C29_liveness_violated : ∃ (c : Il.Cfg) (live : List (Loc × List Nat)) (l k v : Nat) (vs : List Nat),
    (∃ ops : List Op, run ops = some c.graph) ∧
    (∀ fuel : Nat, 1 ≤ fuel → calculateLiveIns c [] [] [] fuel = some live) ∧
    ((l, k), vs) ∈ live ∧ LiveIn c [] [] v (l, k) ∧ v ∉ vs := by
  refine ⟨clobberCfg, [((0, 0), []), ((0, 1), []), ((1, 0), [0]), ((2, 0), [1])], 1, 0, 1, [0],
    ⟨[.connect 0 1, .connect 1 2], by decide +kernel⟩, ?_, by decide, clobber_live1, by decide⟩
  intro fuel h
  obtain ⟨n, rfl⟩ : ∃ n, fuel = n + 1 := ⟨fuel - 1, by omega⟩
  have hn : Liveness.new clobberCfg [] [] = some ⟨[], [], [0, 1]⟩ := by decide +kernel
  unfold calculateLiveIns
  rw [hn]
  simp only [Option.bind_eq_bind, Option.bind_some, liveness_stuck]
  decide +kernel

/-- The hypothesis of `C29_live_partial` is met, with a variable live in the middle of a block. -/
example : calculateLiveIns clobberCfg [] [] [] 1 =
    some [((0, 0), []), ((0, 1), []), ((1, 0), [0]), ((2, 0), [1])] := by decide +kernel

/-! ## C30: the allocator -/

/-- **C30**: on every interference graph the allocator returns (it never fails to find a register), gives a
register to every node and to nothing else, uses at most as many registers as there are nodes, and never
gives neighbours the same register. -/
theorem C30_allocate (g : IntGraph) (u : UGraph g) :
    ∃ m : List (Nat × Nat), allocateRegisters g = some m ∧
      (m.map (·.1)).Nodup ∧
      (∀ a : Nat, IsNode g a ↔ ∃ r : Nat, Assigned m a r) ∧
      (∀ a r : Nat, Assigned m a r → r < g.length) ∧
      (∀ a b r s : Nat, Interferes g a b → Assigned m a r → Assigned m b s → r ≠ s) := by
  obtain ⟨m, h1, h2, h3, h4, h5⟩ := allocate_spec u
  refine ⟨m, h1, h2, ?_, h4, h5⟩
  intro a
  rw [← h3]
  constructor
  · intro ha
    exact lookup_some_of_mem ha
  · rintro ⟨r, hr⟩
    exact List.mem_map.2 ⟨(a, r), mem_of_lookup hr, rfl⟩

/-- **C30**: the assignment depends on the graph only, not on the order in which hash maps and hash sets are
iterated. -/
theorem C30_deterministic (g h : IntGraph) (ug : UGraph g) (uh : UGraph h) (s : SameGraph g h) :
    allocateRegisters g = allocateRegisters h := by
  unfold allocateRegisters
  rw [sameGraph_len ug uh s, simplify_same _ g h ug uh s]
  obtain ⟨st, h1, _, h3⟩ := simplify_spec h.length h uh (Nat.le_refl _)
  rw [h1]
  simp only [Option.bind_eq_bind, Option.bind_some]
  apply colour_same ug uh s
  intro t ht
  exact (s.1 t).2 ((h3 t).1 (by simpa using ht))

/-- **C30**: the interference graph built from live sets is a graph, its nodes are the live variables and its
edges join exactly the different variables that are in a common live set. -/
theorem C30_interference (live : List (Loc × List Nat))
    (hn : ∀ (p : Loc) (vs : List Nat), (p, vs) ∈ live → vs.Nodup) :
    UGraph (interferenceGraph live) ∧
    (∀ a : Nat, IsNode (interferenceGraph live) a ↔ ∃ (p : Loc) (vs : List Nat), (p, vs) ∈ live ∧ a ∈ vs) ∧
    (∀ a b : Nat, Interferes (interferenceGraph live) a b ↔
      a ≠ b ∧ ∃ (p : Loc) (vs : List Nat), (p, vs) ∈ live ∧ a ∈ vs ∧ b ∈ vs) := by
  have s0 : Sets ([] : IntGraph) := ⟨by simp, by simp⟩
  obtain ⟨h1, h2, h3⟩ := igraph_spec live [] s0 (fun e he => hn e.1 e.2 he)
  have e1 : ∀ a b, Interferes (interferenceGraph live) a b ↔
      a ≠ b ∧ ∃ (p : Loc) (vs : List Nat), (p, vs) ∈ live ∧ a ∈ vs ∧ b ∈ vs := by
    intro a b
    refine (h2 a b).trans ?_
    constructor
    · rintro (⟨ns, h, _⟩ | ⟨⟨p, vs⟩, h1, h2, h3, h4⟩)
      · simp at h
      · exact ⟨h4, p, vs, h1, h2, h3⟩
    · rintro ⟨h4, p, vs, h1, h2, h3⟩
      exact Or.inr ⟨(p, vs), h1, h2, h3, h4⟩
  refine ⟨UGraph.of_sets h1 ?_ ?_, ?_, e1⟩
  · intro a b h
    obtain ⟨h4, p, vs, h1, h2, h3⟩ := (e1 a b).1 h
    exact (e1 b a).2 ⟨fun e => h4 e.symm, p, vs, h1, h3, h2⟩
  · intro a h
    exact ((e1 a a).1 h).1 rfl
  · intro a
    refine (h3 a).trans ?_
    constructor
    · rintro (⟨ns, h⟩ | ⟨⟨p, vs⟩, h1, h2⟩)
      · simp at h
      · exact ⟨p, vs, h1, h2⟩
    · rintro ⟨p, vs, h1, h2⟩
      exact Or.inr ⟨(p, vs), h1, h2⟩

/-- **C30**: renumbering keeps exactly the variables that are not inlined, keeps which of them share a
register, and uses exactly the registers below the returned count. -/
theorem C30_normalise (alloc : List (Nat × Nat)) (inlined : List Nat) (hk : (alloc.map (·.1)).Nodup) :
    ((normaliseRegisters alloc inlined).1.map (·.1)).Nodup ∧
    (∀ a : Nat, (∃ r : Nat, Assigned (normaliseRegisters alloc inlined).1 a r) ↔
      a ∉ inlined ∧ ∃ s : Nat, Assigned alloc a s) ∧
    (∀ a b r s r' s' : Nat, Assigned alloc a r → Assigned alloc b s →
      Assigned (normaliseRegisters alloc inlined).1 a r' → Assigned (normaliseRegisters alloc inlined).1 b s' →
      (r' = s' ↔ r = s)) ∧
    (∀ r : Nat, r < (normaliseRegisters alloc inlined).2 ↔
      ∃ a : Nat, Assigned (normaliseRegisters alloc inlined).1 a r) := by
  obtain ⟨n1, n2⟩ := normalise_spec (inlined := inlined) hk
  have mem : ∀ a s, a ∉ inlined → alloc.lookup a = some s →
      s ∈ regOrder (sortByKey (alloc.filter (fun e => !(inlined.contains e.1)))) := by
    intro a s hin hs
    rw [mem_regOrder]
    refine ⟨a, mem_sortByKey.2 (List.mem_filter.2 ⟨mem_of_lookup hs, by simpa using hin⟩)⟩
  refine ⟨n1, ?_, ?_, ?_⟩
  · intro a
    unfold Assigned
    constructor
    · rintro ⟨r, hr⟩
      obtain ⟨h1, s, h2, _⟩ := (n2 a r).1 hr
      exact ⟨h1, s, h2⟩
    · rintro ⟨h1, s, h2⟩
      exact ⟨_, (n2 a _).2 ⟨h1, s, h2, rfl⟩⟩
  · intro a b r s r' s' ha hb ha' hb'
    obtain ⟨i1, t, h1, rfl⟩ := (n2 a r').1 ha'
    obtain ⟨i2, u, h2, rfl⟩ := (n2 b s').1 hb'
    unfold Assigned at ha hb
    rw [ha] at h1
    rw [hb] at h2
    obtain rfl := Option.some.inj h1
    obtain rfl := Option.some.inj h2
    exact ⟨fun e => idxOf_inj (mem a r i1 ha) e, fun e => by rw [e]⟩
  · intro r
    have hc : (normaliseRegisters alloc inlined).2 =
        (regOrder (sortByKey (alloc.filter (fun e => !(inlined.contains e.1))))).length := rfl
    rw [hc]
    constructor
    · intro hr
      have hm := List.getElem_mem hr
      rw [mem_regOrder] at hm
      obtain ⟨a, ha⟩ := hm
      have ha := List.mem_filter.1 (mem_sortByKey.1 ha)
      refine ⟨a, (n2 a r).2 ⟨by simpa using ha.2, _, lookup_eq_of_mem hk ha.1, ?_⟩⟩
      rw [List.Nodup.idxOf_getElem nodup_regOrder]
    · rintro ⟨a, ha⟩
      obtain ⟨i, s, hs, rfl⟩ := (n2 a r).1 ha
      exact List.idxOf_lt_length_iff.2 (mem a s i hs)

/-- Some instruction of the program reads or writes `v`. -/
def Occurs (c : Il.Cfg) (v : Nat) : Prop :=
  ∃ (p : Loc) (i : Inst), instAt c p = some i ∧ (v ∈ i.tgts ∨ Arg.var v ∈ i.args)

theorem mem_collectTemps {c : Il.Cfg} {inlined : List Nat} (hk : (c.bblocks.map (·.1)).Nodup) {v : Nat} :
    v ∈ collectTemps c inlined ↔ v ∉ inlined ∧ Occurs c v := by
  unfold collectTemps Occurs
  simp only [mem_sortLabels, mem_dedup, List.mem_flatMap, List.mem_filter, Bool.not_eq_true',
    List.contains_eq_mem, decide_eq_false_iff_not, Inst.vars, List.mem_append, mem_argVars]
  constructor
  · rintro ⟨⟨l, is⟩, hm, i, hi, hv, hin⟩
    obtain ⟨k, hk', rfl⟩ := List.mem_iff_getElem.1 hi
    refine ⟨hin, (l, k), _, ?_, hv⟩
    have : Cfg.block c l = some is := lookup_eq_of_mem hk hm
    simp only at hk'
    simp [instAt, this, hk']
  · rintro ⟨hin, p, i, hi, hv⟩
    simp only [instAt, Option.bind_eq_bind, Option.bind_eq_some_iff] at hi
    obtain ⟨is, his, hi⟩ := hi
    exact ⟨(p.1, is), mem_of_lookup his, i, List.mem_of_getElem? hi, hv, hin⟩

/-- **C30**, the whole of `compute_regalloc`, partial: every variable that occurs and is not inlined gets a
register and nothing else does, the registers used are exactly those below `reg_count`, and two different
variables that are both read later in the block of some instruction, before being written, get different
registers.  Missing: the same for variables live across blocks, and for targets that are never read, which
are false (`C30_clobber_violated`, `C30_dead_target_violated`). -/
theorem C30_regalloc_partial (c : Il.Cfg) (sinks : List Nat) (fuel : Nat) (r : RegAlloc)
    (hk : (c.bblocks.map (·.1)).Nodup) (h : computeRegalloc c sinks fuel = some r) :
    (∀ a : Nat, (∃ x : Nat, Assigned r.tempToReg a x) ↔ a ∉ r.inlinedTemps ∧ Occurs c a) ∧
    (∀ x : Nat, x < r.regCount ↔ ∃ a : Nat, Assigned r.tempToReg a x) ∧
    (∀ (l k a b x y : Nat) (i : Inst), l ∈ c.graph.labels → instAt c (l, k) = some i →
      r.inlines.lookup (l, k) = none → LocalLive c r.inlines r.inlinedTemps a l k →
      LocalLive c r.inlines r.inlinedTemps b l k → a ≠ b →
      Assigned r.tempToReg a x → Assigned r.tempToReg b y → x ≠ y) := by
  simp only [computeRegalloc, Option.bind_eq_bind, Option.bind_eq_some_iff, Option.some.injEq] at h
  obtain ⟨⟨inl, inlined⟩, ha, live, hl, alloc, hal, rfl⟩ := h
  obtain ⟨l1, l2⟩ := liveIns_spec hl
  obtain ⟨ug, gn, gi⟩ := C30_interference live (fun p vs hm => (l1 p.1 p.2 vs hm).1)
  obtain ⟨s1, s2, s3⟩ := ensureAll_spec (collectTemps c inlined) _ (Sets.of_ugraph ug)
  have ug' : UGraph ((collectTemps c inlined).foldl ensureNode (interferenceGraph live)) :=
    UGraph.of_sets s1 (fun a b h => (s2 b a).2 (ug.symm a b ((s2 a b).1 h)))
      (fun a h => ug.irrefl a ((s2 a a).1 h))
  obtain ⟨m, m1, m2, m3, m4, m5⟩ := C30_allocate _ ug'
  rw [m1] at hal
  obtain rfl := Option.some.inj hal
  obtain ⟨n1, n2, n3, n4⟩ := C30_normalise m inlined m2
  have node : ∀ a, (∃ s : Nat, Assigned m a s) ↔ a ∉ inlined ∧ Occurs c a := by
    intro a
    rw [← m3, s3, gn, mem_collectTemps hk]
    constructor
    · rintro (⟨⟨l, k⟩, vs, hm, hv⟩ | h)
      · obtain ⟨j, i, _, hi, hu, _⟩ := ((l1 l k vs hm).2 a).1 hv
        rcases hu with ⟨hin, i', hi', _, hv'⟩ | ⟨hin, src, next, i', _, _, _, hi', hv'⟩
        · exact ⟨hin, (l, j), i', hi', Or.inr hv'⟩
        · exact ⟨hin, src, i', hi', Or.inr hv'⟩
      · exact h
    · exact Or.inr
  refine ⟨?_, n4, ?_⟩
  · intro a
    rw [n2, node]
    exact ⟨fun h => h.2, fun h => ⟨h.1, h⟩⟩
  · intro l k a b x y i hlab hi hnone la lb hne hx hy
    obtain ⟨vs, hm⟩ := (l2 l k).2 ⟨hlab, hnone, i, hi⟩
    have hva := ((l1 l k vs hm).2 a).2 la
    have hvb := ((l1 l k vs hm).2 b).2 lb
    have hint := (s2 a b).2 ((gi a b).2 ⟨hne, (l, k), vs, hm, hva, hvb⟩)
    obtain ⟨_, xa, hxa⟩ := (n2 a).1 ⟨x, hx⟩
    obtain ⟨_, yb, hyb⟩ := (n2 b).1 ⟨y, hy⟩
    intro e
    exact m5 a b xa yb hint hxa hyb ((n3 a b xa yb x y hxa hyb hx hy).1 e)

theorem additionalUses_some {c : Il.Cfg} {inl : Inlines} {inlined : List Nat} (hinc : ∀ s d : Loc, (s, d) ∈ inl → s.2 < d.2) :
    ∀ (edges : Inlines), (∀ s d : Loc, (s, d) ∈ edges → ∃ i, instAt c s = some i) →
    ∃ add, additionalUses c inl inlined edges = some add
  | [], _ => ⟨_, rfl⟩
  | (src, next) :: rest, h => by
    obtain ⟨e, he⟩ := finalDest_some hinc (inl.length + 1) next
      (Nat.lt_succ_of_le (List.length_filter_le _ _))
    obtain ⟨i, hi⟩ := h src next (by simp)
    obtain ⟨add, ha⟩ := additionalUses_some (inlined := inlined) hinc rest (fun s d hm => h s d (by simp [hm]))
    simp only [instAt, Option.bind_eq_bind, Option.bind_eq_some_iff] at hi
    obtain ⟨b, hb, hi⟩ := hi
    simp only [additionalUses, he, hb, hi, ha, Option.bind_eq_bind, Option.bind_some]
    exact ⟨_, rfl⟩

theorem mem_defsInBlock {l v : Nat} {p : Loc} : ∀ {is : List Inst} {k : Nat}, (v, p) ∈ defsInBlock l k is →
    ∃ (m : Nat) (i : Inst), p = (l, k + m) ∧ is[m]? = some i
  | [], k, h => by simp [defsInBlock] at h
  | i :: is, k, h => by
    unfold defsInBlock at h
    rw [List.mem_append] at h
    rcases h with h | h
    · obtain ⟨w, _, e⟩ := List.mem_map.1 h
      exact ⟨0, i, by simp only [Prod.mk.injEq] at e; exact e.2.symm, by simp⟩
    · obtain ⟨m, i', e, hi⟩ := mem_defsInBlock h
      exact ⟨m + 1, i', by rw [e]; congr 1; omega, by simpa using hi⟩

theorem liveInBlocks_some {lv : Liveness} {c : Il.Cfg} {r : Blocks BitSet} : ∀ {ls : List Nat},
    (∀ l ∈ ls, ∃ is, Cfg.block c l = some is) → ∃ live, liveInBlocks lv c r ls = some live
  | [], _ => ⟨_, rfl⟩
  | l :: ls, h => by
    obtain ⟨is, his⟩ := h l (by simp)
    obtain ⟨rest, hr⟩ := liveInBlocks_some (lv := lv) (r := r) (ls := ls) (fun m hm => h m (by simp [hm]))
    simp only [liveInBlocks, his, hr, Option.bind_eq_bind, Option.bind_some]
    exact ⟨_, rfl⟩

/-- **C30**: once the single-use analysis has accepted the program (its assertions hold), register
allocation does not panic and does not loop: the solver needs one step, inlining chains end, a register is
always found. -/
theorem C30_total (c : Il.Cfg) (sinks : List Nat) (fuel : Nat) (inl : Inlines) (inlined : List Nat)
    (hk : (c.bblocks.map (·.1)).Nodup)
    (hb : ∀ l : Nat, l ∈ c.graph.labels → ∃ is : List Inst, Cfg.block c l = some is)
    (h : analyseSingleUseDefs c = some (inl, inlined)) (hf : 1 ≤ fuel) :
    ∃ r : RegAlloc, computeRegalloc c sinks fuel = some r ∧ r.inlines = inl ∧ r.inlinedTemps = inlined := by
  have hi : inlineVars c (dedup ((allUses c).map (·.1))) = some (inl, inlined) := by
    unfold analyseSingleUseDefs at h
    split at h
    · exact h
    · cases h
  obtain ⟨_, hsd⟩ := inlineVars_spec _ hi
  have hsrc : ∀ s d : Loc, (s, d) ∈ inl → ∃ i, instAt c s = some i := by
    intro s d hm
    obtain ⟨_, _, v, hv⟩ := hsd s d hm
    have hv := mem_of_lookup hv
    unfold allDefs at hv
    obtain ⟨⟨l, is⟩, he, hd⟩ := List.mem_flatMap.1 hv
    obtain ⟨m, i, rfl, hi⟩ := mem_defsInBlock hd
    have : Cfg.block c l = some is := lookup_eq_of_mem hk he
    refine ⟨i, ?_⟩
    simp only at hi
    simp [instAt, this, hi]
  obtain ⟨add, hadd⟩ := additionalUses_some (inlined := inlined) (fun s d hm => (hsd s d hm).2.1) inl hsrc
  obtain ⟨lv, hlv⟩ : ∃ lv, Liveness.new c inl inlined = some lv := by
    simp only [Liveness.new, hadd, Option.bind_eq_bind, Option.bind_some]
    exact ⟨_, rfl⟩
  obtain ⟨n, rfl⟩ : ∃ n, fuel = n + 1 := ⟨fuel - 1, by omega⟩
  obtain ⟨live, hlive⟩ := liveInBlocks_some (lv := lv) (c := c)
    (r := initBlocks lv.analysis ⟨c, .backward, some (calculateVirtualExit c sinks)⟩)
    (ls := c.graph.labelsSorted) (fun l hl => hb l (mem_sortLabels.1 hl))
  have hcl : calculateLiveIns c sinks inl inlined (n + 1) = some live := by
    simp only [calculateLiveIns, hlv, Option.bind_eq_bind, Option.bind_some, liveness_stuck, hlive]
  obtain ⟨l1, l2⟩ := liveIns_spec hcl
  obtain ⟨ug, gn, gi⟩ := C30_interference live (fun p vs hm => (l1 p.1 p.2 vs hm).1)
  obtain ⟨s1, s2, s3⟩ := ensureAll_spec (collectTemps c inlined) _ (Sets.of_ugraph ug)
  have ug' : UGraph ((collectTemps c inlined).foldl ensureNode (interferenceGraph live)) :=
    UGraph.of_sets s1 (fun a b h => (s2 b a).2 (ug.symm a b ((s2 a b).1 h)))
      (fun a h => ug.irrefl a ((s2 a a).1 h))
  obtain ⟨m, m1, _⟩ := C30_allocate _ ug'
  refine ⟨⟨(normaliseRegisters m inlined).1, (normaliseRegisters m inlined).2, inl, inlined⟩, ?_, rfl, rfl⟩
  simp only [computeRegalloc, h, Option.bind_eq_bind, Option.bind_some, hcl, m1]

/-- A triangle with a tail: the hypotheses of `C30_allocate` are met and three registers are needed. -/
example : UGraph [(1, [2, 3]), (2, [1, 3]), (3, [1, 2, 4]), (4, [3])] ∧
    allocateRegisters [(1, [2, 3]), (2, [1, 3]), (3, [1, 2, 4]), (4, [3])] =
      some [(4, 1), (1, 2), (2, 1), (3, 0)] := by
  refine ⟨⟨by decide, ?_, ?_, ?_⟩, by decide +kernel⟩
  · intro a ns h
    simp only [List.mem_cons, Prod.mk.injEq, List.not_mem_nil, or_false] at h
    obtain ⟨_, rfl⟩ | ⟨_, rfl⟩ | ⟨_, rfl⟩ | ⟨_, rfl⟩ := h <;> decide
  · rintro a b ⟨ns, h1, h2⟩
    have h1 := mem_of_lookup h1
    simp only [List.mem_cons, Prod.mk.injEq, List.not_mem_nil, or_false] at h1
    obtain ⟨rfl, rfl⟩ | ⟨rfl, rfl⟩ | ⟨rfl, rfl⟩ | ⟨rfl, rfl⟩ := h1 <;>
      simp only [List.mem_cons, List.not_mem_nil, or_false] at h2
    · obtain rfl | rfl := h2 <;> exact ⟨_, by rfl, by decide⟩
    · obtain rfl | rfl := h2 <;> exact ⟨_, by rfl, by decide⟩
    · obtain rfl | rfl | rfl := h2 <;> exact ⟨_, by rfl, by decide⟩
    · subst h2; exact ⟨_, by rfl, by decide⟩
  · rintro a ⟨ns, h1, h2⟩
    have h1 := mem_of_lookup h1
    simp only [List.mem_cons, Prod.mk.injEq, List.not_mem_nil, or_false] at h1
    obtain ⟨rfl, rfl⟩ | ⟨rfl, rfl⟩ | ⟨rfl, rfl⟩ | ⟨rfl, rfl⟩ := h1 <;> revert h2 <;> decide

/-- Two orders of the same graph. -/
example : SameGraph [(1, [2]), (2, [1])] [(2, [1]), (1, [2])] := by
  constructor
  · intro a
    simp only [isNode_iff]
    simp [or_comm]
  · intro a b
    constructor <;>
    · rintro ⟨ns, h1, h2⟩
      have h1 := mem_of_lookup h1
      simp only [List.mem_cons, Prod.mk.injEq, List.not_mem_nil, or_false] at h1
      obtain ⟨rfl, rfl⟩ | ⟨rfl, rfl⟩ := h1 <;> exact ⟨_, by rfl, h2⟩

/-- The hypotheses of `C30_total` and `C30_regalloc_partial` are met. -/
example : analyseSingleUseDefs clobberCfg = some ([], []) ∧
    computeRegalloc clobberCfg [] 1 = some ⟨[(0, 0), (1, 0)], 1, [], []⟩ := by decide +kernel

/-- **C30 does not hold end to end**: two different variables that are both live at the start of block 1 are
given the same register. -/
theorem C30_clobber_violated : ∃ (c : Il.Cfg) (r : RegAlloc) (p : Loc) (a b x : Nat),
    (∃ ops : List Op, run ops = some c.graph) ∧ computeRegalloc c [] 1 = some r ∧
    LiveIn c r.inlines r.inlinedTemps a p ∧ LiveIn c r.inlines r.inlinedTemps b p ∧ a ≠ b ∧
    Assigned r.tempToReg a x ∧ Assigned r.tempToReg b x :=
  ⟨clobberCfg, ⟨[(0, 0), (1, 0)], 1, [], []⟩, (1, 0), 0, 1, 0, ⟨[.connect 0 1, .connect 1 2], by decide +kernel⟩,
    by decide +kernel, clobber_live0, clobber_live1, by decide, rfl, rfl⟩

/-- One block: `v0 = f(); v1 = g(); h(v0, v0)`.  The result of `g` is never read. -/
def deadCfg : Il.Cfg :=
  { graph := ((run [.connect 0 1]).getD Graph.new)
    bblocks := [(0, [Inst.call (some 0) (.builtin [102]) (.const .undefined) [] [],
                     Inst.call (some 1) (.builtin [103]) (.const .undefined) [] [],
                     Inst.call none (.builtin [104]) (.const .undefined) [.var 0, .var 0] []]), (1, [])]
    entry := 0 }

/-- **C30 does not hold end to end**: an instruction that is not inlined writes `b` while a different
variable `a` is live after it, and both are given the same register, so the write destroys `a`. -/
theorem C30_dead_target_violated : ∃ (c : Il.Cfg) (r : RegAlloc) (l k a b x : Nat),
    (∃ ops : List Op, run ops = some c.graph) ∧ computeRegalloc c [] 1 = some r ∧
    DefinesAt c r.inlines (l, k) b ∧ LocalLive c r.inlines r.inlinedTemps a l (k + 1) ∧ a ≠ b ∧
    Assigned r.tempToReg a x ∧ Assigned r.tempToReg b x := by
  refine ⟨deadCfg, ⟨[(0, 0), (1, 0)], 1, [], []⟩, 0, 1, 0, 1, 0, ⟨[.connect 0 1], by decide +kernel⟩,
    by decide +kernel, ⟨Inst.call (some 1) (.builtin [103]) (.const .undefined) [] [], by decide +kernel, rfl,
      by decide⟩, ?_, by decide, rfl, rfl⟩
  refine ⟨2, Inst.call none (.builtin [104]) (.const .undefined) [.var 0, .var 0] [], by decide, by decide +kernel,
    Or.inl ⟨by simp, Inst.call none (.builtin [104]) (.const .undefined) [.var 0, .var 0] [], by decide +kernel, rfl, by decide⟩, ?_⟩
  intro m h1 h2
  omega

end Verif.Flow
