import Verif.Graph.Model
/-!
# Directed graphs as mathematics: nodes, edges, paths, and what each graph operation should do
-/

namespace Verif.Graph

/-- A directed graph: which labels are nodes and which pairs are edges. -/
structure Digraph where
  node : Nat → Prop
  edge : Nat → Nat → Prop

/-- The graph without nodes. -/
def Digraph.empty : Digraph := ⟨fun _ => False, fun _ _ => False⟩

/-- When a call is allowed: `connect` always, `disconnect` between existing nodes, `pop` on a node
without edges, `contract` on an existing node. -/
def Op.Allowed (d : Digraph) : Op → Prop
  | .connect _ _ => True
  | .disconnect p c => d.node p ∧ d.node c
  | .pop n => d.node n ∧ (∀ m, ¬ d.edge n m) ∧ (∀ m, ¬ d.edge m n)
  | .contract n => d.node n

/-- The graph after a call. -/
def Op.after (d : Digraph) : Op → Digraph
  | .connect p c =>
    ⟨fun k => d.node k ∨ k = p ∨ k = c, fun a b => d.edge a b ∨ (a = p ∧ b = c)⟩
  | .disconnect p c => ⟨d.node, fun a b => d.edge a b ∧ ¬ (a = p ∧ b = c)⟩
  | .pop n => ⟨fun k => d.node k ∧ k ≠ n, d.edge⟩
  | .contract n =>
    ⟨fun k => d.node k ∧ k ≠ n,
     fun a b => a ≠ n ∧ b ≠ n ∧ (d.edge a b ∨ (d.edge a n ∧ d.edge n b))⟩

/-- Every call of a history is allowed when its turn comes. -/
def Legal : Digraph → List Op → Prop
  | _, [] => True
  | d, op :: ops => op.Allowed d ∧ Legal (op.after d) ops

/-- The graph after a history. -/
def afterAll : Digraph → List Op → Digraph
  | d, [] => d
  | d, op :: ops => afterAll (op.after d) ops

/-- `b` can be reached from `a` by following edges. -/
inductive Reach (E : Nat → Nat → Prop) (a : Nat) : Nat → Prop where
  | refl : Reach E a a
  | step {b c : Nat} : Reach E a b → E b c → Reach E a c

/-- `l` is the list of nodes visited, first to last, by a walk along edges from `a` to `b`. -/
inductive Walk (E : Nat → Nat → Prop) (a : Nat) : List Nat → Nat → Prop where
  | start : Walk E a [a] a
  | step {l : List Nat} {b c : Nat} : Walk E a l b → E b c → Walk E a (l ++ [c]) c

/-- The edges of a graph of the program. -/
def Graph.Edge (g : Graph) (a b : Nat) : Prop := b ∈ g.children a

end Verif.Graph
