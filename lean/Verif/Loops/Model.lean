import Verif.Dom.Model
/-!
# Model of the description of loops

`/repo/optimize-js/src/analysis/loop_info.rs`. Node sets are lists without repetition; a `LoopId` is a
position in the list of loops.
-/

namespace Verif.Loops

open Verif.Graph Verif.Dom

/-- `Loop`, loop_info.rs 20–29; the id is its position. -/
structure Loop where
  header : Nat
  parent : Option Nat
  children : List Nat
  nodes : List Nat
  latches : List Nat
  exits : List (Nat × Nat)
deriving DecidableEq, Repr

/-- `LoopInfo`, loop_info.rs 8–15; `header_to_loop` is the position of a header. -/
structure Info where
  loops : List Loop
  overlapping : List (Nat × Nat)
deriving DecidableEq, Repr

/-- `loop_entries`, loop_info.rs 43–44: the loops sorted by their headers.  The sizes never decide,
because the headers are the keys of a map. -/
def entries (raw : List (Nat × List Nat)) : List (Nat × List Nat) :=
  (sortLabels (raw.map (·.1))).map fun h => (h, (raw.lookup h).getD [])

/-- `latches`, loop_info.rs 49–55; the parents are a set, so there is nothing to remove. -/
def latches (g : Graph) (doms : List (Nat × List Nat)) (header : Nat) : List Nat :=
  sortLabels ((g.parents header).filter fun t => dominates doms header t)

/-- `exits`, loop_info.rs 57–66: the pairs in their order; nodes and children are sets, so no pair
comes twice. -/
def exits (g : Graph) (nodes : List Nat) : List (Nat × Nat) :=
  (sortLabels nodes).flatMap fun n =>
    ((g.childrenSorted n).filter fun s => !nodes.contains s).map fun s => (n, s)

/-- `loops[i].nodes` and `loops[i].header`. -/
def nodesAt (es : List (Nat × List Nat)) (i : Nat) : List Nat := (es[i]?.map (·.2)).getD []
def headerAt (es : List (Nat × List Nat)) (i : Nat) : Nat := (es[i]?.map (·.1)).getD 0

/-- `is_subset` and `is_disjoint` of sets. -/
def isSubset (a b : List Nat) : Bool := a.all fun x => b.contains x
def isDisjoint (a b : List Nat) : Bool := a.all fun x => !b.contains x

/-- One step of the search for the parent of loop `i`, loop_info.rs 84–99. -/
def parentStep (es : List (Nat × List Nat)) (i : Nat) (cur : Option Nat) (j : Nat) : Option Nat :=
  if i == j then cur
  else if (nodesAt es i).length < (nodesAt es j).length && isSubset (nodesAt es i) (nodesAt es j) then
    let replace := match cur with
      | none => true
      | some c => decide ((nodesAt es j).length < (nodesAt es c).length) ||
          ((nodesAt es j).length == (nodesAt es c).length && decide (headerAt es j < headerAt es c))
    if replace then some j else cur
  else cur

/-- `parents[i]`, loop_info.rs 81–101. -/
def parentAt (es : List (Nat × List Nat)) (i : Nat) : Option Nat :=
  (List.range es.length).foldl (parentStep es i) none

/-- The test of loop_info.rs 106–110. -/
def overlaps (left right : List Nat) : Bool :=
  !(decide (left.length < right.length) && isSubset left right) &&
  !(decide (right.length < left.length) && isSubset right left) && !isDisjoint left right

/-- `overlapping`, loop_info.rs 103–116; the pairs come in order. -/
def overlapping (es : List (Nat × List Nat)) : List (Nat × Nat) :=
  (List.range es.length).flatMap fun i =>
    ((List.range es.length).filter fun j =>
      decide (i < j) && overlaps (nodesAt es i) (nodesAt es j)).map fun j => (i, j)

/-- `children` of loop `j`, loop_info.rs 118–129: in the order of the loops, which is the order of
their headers. -/
def childrenAt (es : List (Nat × List Nat)) (j : Nat) : List Nat :=
  (List.range es.length).filter fun i => parentAt es i == some j

/-- `LoopInfo::from_loops_map`, loop_info.rs 36–137. -/
def fromLoops (g : Graph) (doms : List (Nat × List Nat)) (raw : List (Nat × List Nat)) : Info :=
  let es := entries raw
  ⟨(List.range es.length).map fun i =>
      ⟨headerAt es i, parentAt es i, childrenAt es i, nodesAt es i, latches g doms (headerAt es i),
        exits g (nodesAt es i)⟩,
    overlapping es⟩

/-- `LoopInfo::compute`, loop_info.rs 32–34. -/
def compute (g : Graph) (d : Dom) : Option Info := do
  let raw ← findLoops g d
  let doms ← d.dominatesGraph
  some (fromLoops g doms raw)

end Verif.Loops
