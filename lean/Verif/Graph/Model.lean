/-!
# Model of the directed graph and the control-flow graph of `optimize-js`

Sources: `optimize-js/src/graph/mod.rs`, `optimize-js/src/cfg/cfg.rs`, `optimize-js/src/cfg/bblock.rs`.

Simplifications, all of them uniform:
* labels are natural numbers instead of `u32`;
* a `HashMap` is an association list and a `HashSet` a list; the code iterates over either only after
  sorting, or in loops whose result does not depend on the order (the theorems are about membership);
* a panic (`unwrap` of `None`, a failed `assert!`) is the result `none`.
-/

namespace Verif.Graph

/-- `sort_unstable` on labels; on a list without duplicates every sorting algorithm gives the same
list, so the model uses insertion sort (cfg.rs 41–45, 63–67, 77–81). -/
def insertSorted (x : Nat) : List Nat → List Nat
  | [] => [x]
  | y :: ys => if x ≤ y then x :: y :: ys else y :: insertSorted x ys

/-- See `insertSorted`. -/
def sortLabels : List Nat → List Nat
  | [] => []
  | x :: xs => insertSorted x (sortLabels xs)

/-- `HashSet::insert`. -/
def setInsert (s : List Nat) (x : Nat) : List Nat := if x ∈ s then s else s ++ [x]

/-- `HashSet::remove`. -/
def setRemove (s : List Nat) (x : Nat) : List Nat := s.filter (fun y => y != x)

/-- `HashSet::extend`. -/
def setExtend (s : List Nat) (xs : List Nat) : List Nat := xs.foldl setInsert s

/-- `GraphNode`: graph/mod.rs 39–44. -/
structure Node where
  children : List Nat
  parents : List Nat
deriving DecidableEq, Repr

/-- `GraphNode::default()`: graph/mod.rs 39. -/
def Node.default : Node := ⟨[], []⟩

/-- `Graph`: graph/mod.rs 53–57. -/
structure Graph where
  nodes : List (Nat × Node)
deriving DecidableEq, Repr

/-- `Graph::new`: graph/mod.rs 63–67. -/
def Graph.new : Graph := ⟨[]⟩

/-- `HashMap::get`. -/
def Graph.get (g : Graph) (k : Nat) : Option Node := g.nodes.lookup k

/-- `Graph::contains`: graph/mod.rs 69–71. -/
def Graph.contains (g : Graph) (k : Nat) : Bool := (g.get k).isSome

/-- `Graph::nodes`: graph/mod.rs 73–75. -/
def Graph.labels (g : Graph) : List Nat := g.nodes.map (·.1)

/-- `Graph::edges`: graph/mod.rs 77–82. -/
def Graph.edges (g : Graph) : List (Nat × Nat) :=
  g.nodes.flatMap (fun e => e.2.children.map (fun c => (e.1, c)))

/-- `Graph::parents`: graph/mod.rs 84–91. -/
def Graph.parents (g : Graph) (k : Nat) : List Nat :=
  match g.get k with
  | some n => n.parents
  | none => []

/-- `Graph::children`: graph/mod.rs 94–101. -/
def Graph.children (g : Graph) (k : Nat) : List Nat :=
  match g.get k with
  | some n => n.children
  | none => []

/-- Replace the value at `k`, if there is one. -/
def Graph.mapAt (g : Graph) (k : Nat) (f : Node → Node) : Graph :=
  ⟨g.nodes.map (fun e => if e.1 == k then (e.1, f e.2) else e)⟩

/-- `nodes.entry(k).or_default()` followed by a change of the node. -/
def Graph.entry (g : Graph) (k : Nat) (f : Node → Node) : Graph :=
  if g.contains k then g.mapAt k f else ⟨g.nodes ++ [(k, f Node.default)]⟩

/-- `nodes.get_mut(k).unwrap()` followed by a change of the node. -/
def Graph.getMut (g : Graph) (k : Nat) (f : Node → Node) : Option Graph :=
  if g.contains k then some (g.mapAt k f) else none

/-- `nodes.remove(k)`, without the result. -/
def Graph.erase (g : Graph) (k : Nat) : Graph := ⟨g.nodes.filter (fun e => e.1 != k)⟩

/-- `Graph::connect`: graph/mod.rs 105–118. -/
def Graph.connect (g : Graph) (parent child : Nat) : Graph :=
  let g := g.entry parent (fun n => { n with children := setInsert n.children child })
  g.entry child (fun n => { n with parents := setInsert n.parents parent })

/-- `Graph::disconnect`: graph/mod.rs 122–125. -/
def Graph.disconnect (g : Graph) (parent child : Nat) : Option Graph := do
  let g ← g.getMut parent (fun n => { n with children := setRemove n.children child })
  g.getMut child (fun n => { n with parents := setRemove n.parents parent })

/-- `Graph::pop`: graph/mod.rs 129–133. -/
def Graph.pop (g : Graph) (node : Nat) : Option Graph :=
  match g.get node with
  | none => none
  | some r => if r.parents.isEmpty && r.children.isEmpty then some (g.erase node) else none

/-- `Graph::contract`: graph/mod.rs 136–171.  The four loops in the order of the source. -/
def Graph.contract (g : Graph) (node : Nat) : Option Graph :=
  match g.get node with
  | none => none
  | some r => do
    let g := g.erase node
    let children := setRemove r.children node
    let parents := setRemove r.parents node
    let g ← parents.foldlM (fun g p =>
      g.getMut p (fun n => { n with children := setExtend n.children children })) g
    let g ← children.foldlM (fun g c =>
      g.getMut c (fun n => { n with parents := setExtend n.parents parents })) g
    let g ← parents.foldlM (fun g p =>
      g.getMut p (fun n => { n with children := setRemove n.children node })) g
    children.foldlM (fun g c =>
      g.getMut c (fun n => { n with parents := setRemove n.parents node })) g

/-- One call of the mutating API. -/
inductive Op where
  | connect (parent child : Nat)
  | disconnect (parent child : Nat)
  | pop (node : Nat)
  | contract (node : Nat)
deriving DecidableEq, Repr

/-- Dispatch of one call. -/
def Graph.apply (g : Graph) : Op → Option Graph
  | .connect p c => some (g.connect p c)
  | .disconnect p c => g.disconnect p c
  | .pop n => g.pop n
  | .contract n => g.contract n

/-- A history of calls, starting from the empty graph. -/
def run (ops : List Op) : Option Graph := ops.foldlM Graph.apply Graph.new

/-- `CfgGraph::labels_sorted`: cfg.rs 41–45. -/
def Graph.labelsSorted (g : Graph) : List Nat := sortLabels g.labels

/-- `CfgGraph::parents_sorted`: cfg.rs 63–67. -/
def Graph.parentsSorted (g : Graph) (k : Nat) : List Nat := sortLabels (g.parents k)

/-- `CfgGraph::children_sorted`: cfg.rs 77–81. -/
def Graph.childrenSorted (g : Graph) (k : Nat) : List Nat := sortLabels (g.children k)

/-- `CfgGraph::delete_many`: cfg.rs 95–99. -/
def Graph.deleteMany (g : Graph) (bs : List Nat) : Option Graph := bs.foldlM Graph.contract g

/-- The `for c in self.children_sorted(n)` loop of `find_unreachable`: cfg.rs 119–124.  The pair is
`(seen, to_visit)`. -/
def visitChildren : List Nat → List Nat × List Nat → List Nat × List Nat
  | [], s => s
  | c :: cs, (seen, queue) =>
    if c ∈ seen then visitChildren cs (seen, queue)
    else visitChildren cs (seen ++ [c], queue ++ [c])

/-- The `while let Some(n) = to_visit.pop_front()` loop of `find_unreachable`: cfg.rs 118–125.  The
fuel only makes the definition total; `none` means the loop was still running. -/
def bfs (g : Graph) : Nat → List Nat × List Nat → Option (List Nat)
  | _, (seen, []) => some seen
  | 0, (_, _ :: _) => none
  | fuel + 1, (seen, n :: queue) => bfs g fuel (visitChildren (g.childrenSorted n) (seen, queue))

/-- `CfgGraph::find_unreachable`: cfg.rs 115–130. -/
def findUnreachable (g : Graph) (fuel entry : Nat) : Option (List Nat) := do
  let seen ← bfs g fuel ([entry], [entry])
  some (g.labelsSorted.filter (fun n => !(seen.contains n)))

/-- `Cfg`: cfg.rs 199–204.  The blocks are opaque here. -/
structure Cfg (β : Type) where
  graph : Graph
  bblocks : List (Nat × β)
  entry : Nat
deriving DecidableEq, Repr

/-- `CfgBBlocks::remove`: cfg.rs 179–181; panics when the block does not exist. -/
def removeBlock {β : Type} (bs : List (Nat × β)) (label : Nat) : Option (List (Nat × β)) :=
  if (bs.lookup label).isSome then some (bs.filter (fun e => e.1 != label)) else none

/-- `Cfg::find_and_pop_unreachable`: cfg.rs 219–224.  Fuel as in `bfs`. -/
def Cfg.findAndPopUnreachable {β : Type} (c : Cfg β) (fuel : Nat) : Option (Cfg β × List Nat) := do
  let toDelete ← findUnreachable c.graph fuel c.entry
  let graph ← c.graph.deleteMany toDelete
  let bblocks ← toDelete.foldlM removeBlock c.bblocks
  some ({ c with graph := graph, bblocks := bblocks }, toDelete)

/-- `Cfg::pop`: cfg.rs 210–215. -/
def Cfg.pop {β : Type} (c : Cfg β) (label : Nat) : Option (Cfg β) := do
  let graph ← if c.graph.contains label then c.graph.pop label else some c.graph
  let bblocks ← removeBlock c.bblocks label
  some { c with graph := graph, bblocks := bblocks }

/-- `PostOrderVisitor::visit`: graph/mod.rs 20–36, with the neighbour function (`children` or
`parents`, sorted) as a parameter; the state is `(seen, order)`.  The fuel bounds the recursion
depth; `none` means it was exceeded. -/
def visit (nbrs : Nat → List Nat) : Nat → Nat → List Nat × List Nat → Option (List Nat × List Nat)
  | 0, _, _ => none
  | fuel + 1, n, (seen, order) =>
    if n ∈ seen then some (seen, order)
    else do
      let (seen, order) ← (nbrs n).foldlM (fun s c => visit nbrs fuel c s) (seen ++ [n], order)
      some (seen, order ++ [n])

/-- `Graph::_calculate_postorder`: graph/mod.rs 173–197; the map from label to number is
`List.idxOf`. -/
def postorder (nbrs : Nat → List Nat) (fuel entry : Nat) : Option (List Nat) :=
  (visit nbrs fuel entry ([], [])).map (·.2)

/-- `CfgGraph::calculate_postorder`: cfg.rs 132–141. -/
def Graph.calculatePostorder (g : Graph) (fuel entry : Nat) : Option (List Nat) :=
  postorder g.childrenSorted fuel entry

/-- `CfgGraph::calculate_reversed_graph_postorder`: cfg.rs 144–153. -/
def Graph.calculateReversedPostorder (g : Graph) (fuel entry : Nat) : Option (List Nat) :=
  postorder g.parentsSorted fuel entry

/-- `Cfg::reverse_postorder`: cfg.rs 274–277. -/
def Cfg.reversePostorder {β : Type} (c : Cfg β) (fuel : Nat) : Option (List Nat) :=
  (c.graph.calculatePostorder fuel c.entry).map List.reverse

end Verif.Graph
