import Verif.Graph.Model
/-!
# Model of the dominator computation and the analyses built on it

Sources: `optimize-js/src/dom/mod.rs`, `optimize-js/src/analysis/find_loops.rs`.

Simplifications: labels are natural numbers; a `HashMap` is an association list, a `HashSet` a list; an
index into a map or vector that panics is the result `none`.  Loops of the source that have no obvious
bound get a fuel argument; running out of fuel is also `none`, and the theorems show that it does not
happen from a stated bound on.
-/

namespace Verif.Dom

open Verif.Graph

/-- `HashMap::insert` on `HashMap<u32, u32>`. -/
def insertKV (m : List (Nat × Nat)) (k v : Nat) : List (Nat × Nat) :=
  (k, v) :: m.filter (fun e => e.1 != k)

/-- `label_to_postorder[&x]`: dom/mod.rs 235–236, built in graph/mod.rs 191–195. -/
def poNum (po : List Nat) (x : Nat) : Option Nat := if x ∈ po then some (po.idxOf x) else none

/-- One move of a finger, `label_to_postorder[&idom_by[&postorder[finger]]]`: dom/mod.rs 239, 242. -/
def up (po : List Nat) (idom : List (Nat × Nat)) (f : Nat) : Option Nat := do
  let b ← po[f]?
  let p ← idom.lookup b
  poNum po p

/-- The `intersect!` macro: dom/mod.rs 232–247.  The two inner `while` loops are run one move at a time;
the sequence of finger positions is the same. -/
def intersect (po : List Nat) (idom : List (Nat × Nat)) : Nat → Nat → Nat → Option Nat
  | 0, _, _ => none
  | fuel + 1, f1, f2 =>
    if f1 < f2 then do
      let f ← up po idom f1
      intersect po idom fuel f f2
    else if f2 < f1 then do
      let f ← up po idom f2
      intersect po idom fuel f1 f
    else po[f1]?

/-- `intersect!(p, new_idom)` with labels: dom/mod.rs 235–236, 263.  The fuel is one more than the
number of moves two fingers can make. -/
def meet (po : List Nat) (idom : List (Nat × Nat)) (b1 b2 : Nat) : Option Nat := do
  let f1 ← poNum po b1
  let f2 ← poNum po b2
  intersect po idom (2 * po.length + 1) f1 f2

/-- The `for p in parents` loop: dom/mod.rs 261–265. -/
def meetAll (po : List Nat) (idom : List (Nat × Nat)) : List Nat → Nat → Option Nat
  | [], acc => some acc
  | p :: ps, acc =>
    if (idom.lookup p).isSome then do
      let acc ← meet po idom p acc
      meetAll po idom ps acc
    else meetAll po idom ps acc

/-- The body of the `for &b in postorder.iter().rev()` loop: dom/mod.rs 251–270. -/
def processBlock (preds : Nat → List Nat) (po : List Nat) (s : List (Nat × Nat) × Bool) (b : Nat) :
    Option (List (Nat × Nat) × Bool) :=
  match (preds b).find? (fun n => (s.1.lookup n).isSome) with
  | none => some s
  | some first => do
    let newIdom ← meetAll po s.1 ((preds b).filter (fun p => p != first)) first
    if s.1.lookup b != some newIdom then some (insertKV s.1 b newIdom, true) else some s

/-- One iteration of the outer `loop`: dom/mod.rs 250–270. -/
def pass (preds : Nat → List Nat) (po : List Nat) (entry : Nat) (idom : List (Nat × Nat)) :
    Option (List (Nat × Nat) × Bool) :=
  (po.reverse.filter (fun b => b != entry)).foldlM (processBlock preds po) (idom, false)

/-- The outer `loop`: dom/mod.rs 249–274. -/
def passes (preds : Nat → List Nat) (po : List Nat) (entry : Nat) :
    Nat → List (Nat × Nat) → Option (List (Nat × Nat))
  | 0, _ => none
  | fuel + 1, idom =>
    match pass preds po entry idom with
    | none => none
    | some (idom', true) => passes preds po entry fuel idom'
    | some (idom', false) => some idom'

/-- `Dom`: dom/mod.rs 195–203.  `domtree` is determined by `idom_by` and is recomputed where it is
used. -/
structure Dom where
  postorder : List Nat
  idomBy : List (Nat × Nat)
  entry : Nat
deriving DecidableEq, Repr

/-- `Dom::calculate`: dom/mod.rs 216–286, for either direction: `nbrs` is the direction in which the
postorder is taken and `preds` its reverse. -/
def calculate (nbrs preds : Nat → List Nat) (fuel entry : Nat) : Option Dom := do
  let po ← postorder nbrs fuel entry
  let idom ← passes preds po entry fuel [(entry, entry)]
  some ⟨po, idom.filter (fun e => e.1 != entry), entry⟩

/-- `Dom::<false>::calculate`: dom/mod.rs 222–225. -/
def calculateDom (g : Graph) (fuel entry : Nat) : Option Dom :=
  calculate g.childrenSorted g.parentsSorted fuel entry

/-- `Dom::idom_of`, `idom`, `immediate_dominator`: dom/mod.rs 288–290, 369–375. -/
def Dom.idomOf (d : Dom) (n : Nat) : Option Nat := d.idomBy.lookup n

/-- The inner `loop` of `dominated_by_graph`: dom/mod.rs 303–310.  It lists the nodes from `n` up to the
entry. -/
def Dom.chain (d : Dom) : Nat → Nat → Option (List Nat)
  | 0, _ => none
  | fuel + 1, n =>
    if n == d.entry then some [n]
    else do
      let p ← d.idomOf n
      let rest ← d.chain fuel p
      some (n :: rest)

/-- `Dom::dominated_by_graph`: dom/mod.rs 298–313. -/
def Dom.dominatedByGraph (d : Dom) : Option (List (Nat × List Nat)) := do
  let rest ← (d.idomBy.map (·.1)).mapM (fun label => do
    let e ← d.chain (d.postorder.length + 1) label
    some (label, e))
  some ((d.entry, [d.entry]) :: rest)

/-- `DominatedByGraph::dominated_by`: dom/mod.rs 18–20. -/
def dominatedBy (m : List (Nat × List Nat)) (a b : Nat) : Bool :=
  match m.lookup a with
  | some s => s.contains b
  | none => false

/-- `entry(k).or_default().insert(x)` on `HashMap<u32, HashSet<u32>>`. -/
def insertInto (m : List (Nat × List Nat)) (k x : Nat) : List (Nat × List Nat) :=
  match m.lookup k with
  | some s => (k, setInsert s x) :: m.filter (fun e => e.1 != k)
  | none => (k, [x]) :: m

/-- `Dom::dominates_graph`: dom/mod.rs 317–326. -/
def Dom.dominatesGraph (d : Dom) : Option (List (Nat × List Nat)) := do
  let bys ← d.dominatedByGraph
  some (bys.foldl (fun doms e => e.2.foldl (fun doms parent => insertInto doms parent e.1) doms) [])

/-- `DominatesGraph::dominates`: dom/mod.rs 10–12. -/
def dominates (m : List (Nat × List Nat)) (a b : Nat) : Bool :=
  match m.lookup a with
  | some s => s.contains b
  | none => false

/-- The `while runner != self.idom_by[&b]` loop of `dominance_frontiers`: dom/mod.rs 345–349. -/
def Dom.runner (d : Dom) (b stop : Nat) :
    Nat → Nat → List (Nat × List Nat) → Option (List (Nat × List Nat))
  | 0, _, _ => none
  | fuel + 1, r, df =>
    if r == stop then some df
    else do
      let p ← d.idomOf r
      d.runner b stop fuel p (insertInto df r b)

/-- `Dom::dominance_frontiers`: dom/mod.rs 334–353. -/
def Dom.dominanceFrontiers (d : Dom) (g : Graph) : Option (List (Nat × List Nat)) :=
  d.postorder.reverse.foldlM (fun df b =>
    match d.idomOf b with
    | none => some df
    | some stop =>
      let parents := g.parentsSorted b
      if parents.length < 2 then some df
      else parents.foldlM (fun df p => d.runner b stop (d.postorder.length + 1) p df) df) []

/-- `Dom::immediately_dominated_by`: dom/mod.rs 356–367, with the construction of `domtree` at
dom/mod.rs 276–278. -/
def Dom.immediatelyDominatedBy (d : Dom) (parent : Nat) : List Nat :=
  sortLabels ((d.idomBy.filter (fun e => e.2 == parent)).map (·.1))

/-- The second loop of `lca`: dom/mod.rs 392–401. -/
def Dom.firstIn (d : Dom) (anc : List Nat) : Nat → Nat → Option Nat
  | 0, _ => none
  | fuel + 1, cur =>
    if cur ∈ anc then some cur
    else if cur == d.entry then none
    else do
      let p ← d.idomOf cur
      d.firstIn anc fuel p

/-- `Dom::lca`: dom/mod.rs 377–403; the first loop (382–390) is `chain`. -/
def Dom.lca (d : Dom) (a b : Nat) : Option Nat :=
  if a == b then some a
  else do
    let anc ← d.chain (d.postorder.length + 1) a
    d.firstIn anc (d.postorder.length + 1) b

/-- `Dom::lca_all`: dom/mod.rs 405–412. -/
def Dom.lcaAll (d : Dom) : List Nat → Option Nat
  | [] => none
  | n :: ns => ns.foldlM d.lca n

/-- The `for p in cfg.graph.parents_sorted(n)` loop of `find_loops`: find_loops.rs 45–54.  The pair is
`(l, queue)`. -/
def loopParents (doms : List (Nat × List Nat)) (header : Nat) :
    List Nat → List Nat × List Nat → List Nat × List Nat
  | [], s => s
  | p :: ps, (l, queue) =>
    if dominates doms header p then
      if p ∈ l then loopParents doms header ps (l, queue)
      else loopParents doms header ps (l ++ [p], queue ++ [p])
    else loopParents doms header ps (l, queue)

/-- The `while let Some(n) = queue.pop_front()` loop of `find_loops`: find_loops.rs 43–55. -/
def loopBody (g : Graph) (doms : List (Nat × List Nat)) (header : Nat) :
    Nat → List Nat × List Nat → Option (List Nat)
  | _, (l, []) => some l
  | 0, (_, _ :: _) => none
  | fuel + 1, (l, n :: queue) =>
    loopBody g doms header fuel (loopParents doms header (g.parentsSorted n) (l, queue))

/-- The body of the two outer loops of `find_loops`: find_loops.rs 34–55.  The bound on the number of
iterations is one more than the number of nodes. -/
def loopEdge (g : Graph) (doms : List (Nat × List Nat)) (loops : List (Nat × List Nat))
    (e : Nat × Nat) : Option (List (Nat × List Nat)) :=
  if dominates doms e.2 e.1 then do
    let loops := insertInto (insertInto loops e.2 e.2) e.2 e.1
    let l ← loops.lookup e.2
    let l ← loopBody g doms e.2 (g.labels.length + 1) (l, [e.1])
    some ((e.2, l) :: loops.filter (fun x => x.1 != e.2))
  else some loops

/-- `find_loops`: find_loops.rs 27–59. -/
def findLoops (g : Graph) (d : Dom) : Option (List (Nat × List Nat)) := do
  let doms ← d.dominatesGraph
  let edges := g.labelsSorted.flatMap (fun t => (g.childrenSorted t).map (fun h => (t, h)))
  edges.foldlM (loopEdge g doms) []

end Verif.Dom
