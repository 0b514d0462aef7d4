import Mathlib.Order.Defs.PartialOrder
import Verif.Flow.Model
import Verif.Graph.Spec
/-!
# Specification of dataflow solutions, liveness and register assignment

Nothing here mentions worklists, bit sets, stacks or colour choices.
-/

namespace Verif.Flow

open Verif.Graph Verif.Il

/-! ## Dataflow equations -/

/-- The state a result assigns to a label. -/
def at' {σ : Type} (bot : σ) (r : Blocks σ) (l : Nat) : BlockState σ := (r.lookup l).getD ⟨bot, bot⟩

/-- The places of a flow graph: nodes of the control flow graph, blocks, and the virtual exit. -/
def Node (f : FlowGraph) (l : Nat) : Prop :=
  l ∈ f.cfg.graph.labels ∨ (∃ is : List Inst, (l, is) ∈ f.cfg.bblocks) ∨
    ∃ e : VirtualExit, f.virtualExit = some e ∧ e.label = l

/-- What `p` passes on is an input of `l`: forwards along the edges of the graph, backwards against them, and
backwards from the virtual exit to the blocks it is attached to.  Nothing is an input of the exit. -/
def Flows (f : FlowGraph) (p l : Nat) : Prop :=
  (∀ e : VirtualExit, f.virtualExit = some e → e.label ≠ l) ∧
  ((f.direction = .forward ∧ p ∈ f.cfg.graph.parents l) ∨
   (f.direction = .backward ∧ p ∈ f.cfg.graph.children l) ∨
   (f.direction = .backward ∧ ∃ e : VirtualExit, f.virtualExit = some e ∧ l ∈ e.predecessors ∧ p = e.label))

/-- The instructions of a place: none at the virtual exit. -/
def Contents (f : FlowGraph) (l : Nat) (is : List Inst) : Prop :=
  (∃ e : VirtualExit, f.virtualExit = some e ∧ e.label = l ∧ is = []) ∨
  ((∀ e : VirtualExit, f.virtualExit = some e → e.label ≠ l) ∧ f.cfg.bblocks.lookup l = some is)

/-- The inputs of `l`, in increasing order. -/
def Sources (f : FlowGraph) (l : Nat) (ps : List Nat) : Prop :=
  ps.Pairwise (fun a b : Nat => a < b) ∧ ∀ p : Nat, p ∈ ps ↔ Flows f p l

/-- The effect of a block: its instructions with their numbers, first to last or last to first. -/
def through {σ : Type} (a : Analysis σ) (l : Nat) (is : List Inst) (s : σ) : σ :=
  match a.direction with
  | .forward => is.zipIdx.foldl (fun (s : σ) (e : Inst × Nat) => a.applyInst l e.2 e.1 s) s
  | .backward => is.zipIdx.foldr (fun (e : Inst × Nat) (s : σ) => a.applyInst l e.2 e.1 s) s

/-- The dataflow equation of `l` holds for the assignment `x`: what comes in is the boundary state or the
merge of what the inputs pass on, and what goes out is the effect of the block on it. -/
def Solves {σ : Type} (a : Analysis σ) (f : FlowGraph) (boundary : Nat) (x : Nat → BlockState σ)
    (l : Nat) : Prop :=
  ∃ (is : List Inst) (ps : List Nat), Contents f l is ∧ Sources f l ps ∧
    match a.direction with
    | .forward =>
      (x l).entry = (if l = boundary then a.boundaryState else a.meet (ps.map (fun p => (p, (x p).exit)))) ∧
      (x l).exit = through a l is (x l).entry
    | .backward =>
      (x l).exit = (if l = boundary then a.boundaryState else a.meet (ps.map (fun p => (p, (x p).entry)))) ∧
      (x l).entry = through a l is (x l).exit

/-- A flow graph on which an analysis can be run: the graph comes from a history of the graph API, every
node has a block, the boundary is a node, and the virtual exit is a new label placed after nodes. -/
structure Good (f : FlowGraph) (boundary : Nat) : Prop where
  history : ∃ ops : List Op, run ops = some f.cfg.graph
  blocks : ∀ l : Nat, l ∈ f.cfg.graph.labels → ∃ is : List Inst, Cfg.block f.cfg l = some is
  boundary : Node f boundary
  exitNew : ∀ e : VirtualExit, f.virtualExit = some e →
    e.label ∉ f.cfg.graph.labels ∧ e.predecessors.Nodup ∧ ∀ p : Nat, p ∈ e.predecessors → p ∈ f.cfg.graph.labels

/-- Pointwise order on block states. -/
def LE' {σ : Type} [PartialOrder σ] (s t : BlockState σ) : Prop := s.entry ≤ t.entry ∧ s.exit ≤ t.exit

/-- A monotone analysis: `bottom` is least, instructions and merges preserve the order. -/
structure Mono {σ : Type} [PartialOrder σ] (a : Analysis σ) : Prop where
  least : ∀ s : σ, a.bottom ≤ s
  inst : ∀ (l k : Nat) (i : Inst) (s t : σ), s ≤ t → a.applyInst l k i s ≤ a.applyInst l k i t
  meet : ∀ (ps : List Nat) (x y : Nat → σ), (∀ p : Nat, p ∈ ps → x p ≤ y p) →
    a.meet (ps.map (fun p => (p, x p))) ≤ a.meet (ps.map (fun p => (p, y p)))

/-- The lattice has height at most `n`: a rank function that grows strictly and stays below `n`. -/
def Height (σ : Type) [PartialOrder σ] (n : Nat) : Prop :=
  ∃ h : σ → Nat, (∀ s t : σ, s < t → h s < h t) ∧ ∀ s : σ, h s ≤ n

/-- Blocks that information from the boundary can flow to. -/
inductive FlowReach (f : FlowGraph) (boundary : Nat) : Nat → Prop where
  | boundary : FlowReach f boundary boundary
  | step {p l : Nat} : FlowReach f boundary p → Flows f p l → FlowReach f boundary l

/-! ## Liveness -/

/-- Following inlining from `d` ends at `e`. -/
inductive ChainEnd (inl : Inlines) : Loc → Loc → Prop where
  | stop {d : Loc} : inl.lookup d = none → ChainEnd inl d d
  | step {d d' e : Loc} : inl.lookup d = some d' → ChainEnd inl d' e → ChainEnd inl d e

/-- The instruction at `p`, or one that ends up inlined in it, reads `v`. -/
def UsesAt (c : Il.Cfg) (inl : Inlines) (inlined : List Nat) (p : Loc) (v : Nat) : Prop :=
  (v ∉ inlined ∧ ∃ i : Inst, instAt c p = some i ∧ inl.lookup p = none ∧ Arg.var v ∈ i.args) ∨
  (v ∉ inlined ∧ ∃ (src next : Loc) (i : Inst), (src, next) ∈ inl ∧ ChainEnd inl next p ∧ inl.lookup p = none ∧
    instAt c src = some i ∧ Arg.var v ∈ i.args)

/-- The instruction at `p` is not inlined elsewhere and writes `v`. -/
def DefinesAt (c : Il.Cfg) (inl : Inlines) (p : Loc) (v : Nat) : Prop :=
  ∃ i : Inst, instAt c p = some i ∧ inl.lookup p = none ∧ v ∈ i.tgts

/-- `v` is live before the place `(l, k)`: some path from there reads it before writing it. -/
inductive LiveIn (c : Il.Cfg) (inl : Inlines) (inlined : List Nat) (v : Nat) : Loc → Prop where
  | use {l k : Nat} {i : Inst} : instAt c (l, k) = some i → UsesAt c inl inlined (l, k) v →
      LiveIn c inl inlined v (l, k)
  | next {l k : Nat} {i : Inst} : instAt c (l, k) = some i → ¬ DefinesAt c inl (l, k) v →
      LiveIn c inl inlined v (l, k + 1) → LiveIn c inl inlined v (l, k)
  | jump {l s : Nat} {is : List Inst} : Cfg.block c l = some is → s ∈ c.graph.children l →
      LiveIn c inl inlined v (s, 0) → LiveIn c inl inlined v (l, is.length)

/-- The same, for paths that stay inside the block: `v` is read at some `j ≥ k` of the block and not written
between. -/
def LocalLive (c : Il.Cfg) (inl : Inlines) (inlined : List Nat) (v : Nat) (l k : Nat) : Prop :=
  ∃ (j : Nat) (i : Inst), k ≤ j ∧ instAt c (l, j) = some i ∧ UsesAt c inl inlined (l, j) v ∧
    ∀ m : Nat, k ≤ m → m < j → ¬ DefinesAt c inl (l, m) v

/-! ## Register assignment -/

/-- `b` is a neighbour of `a`. -/
def Interferes (g : IntGraph) (a b : Nat) : Prop := ∃ ns : List Nat, g.lookup a = some ns ∧ b ∈ ns

/-- `a` is a node. -/
def IsNode (g : IntGraph) (a : Nat) : Prop := ∃ ns : List Nat, g.lookup a = some ns

/-- An interference graph: keys and neighbours are sets, edges go both ways between different nodes. -/
structure UGraph (g : IntGraph) : Prop where
  keys : (g.map (·.1)).Nodup
  sets : ∀ (a : Nat) (ns : List Nat), (a, ns) ∈ g → ns.Nodup
  symm : ∀ a b : Nat, Interferes g a b → Interferes g b a
  irrefl : ∀ a : Nat, ¬ Interferes g a a

/-- Two representations of the same map from nodes to sets of neighbours. -/
def SameGraph (g h : IntGraph) : Prop :=
  (∀ a : Nat, IsNode g a ↔ IsNode h a) ∧ ∀ a b : Nat, Interferes g a b ↔ Interferes h a b

/-- The assignment gives `a` the register `r`. -/
def Assigned (m : List (Nat × Nat)) (a r : Nat) : Prop := m.lookup a = some r

end Verif.Flow
