import Verif.Ssa.Branches
/-!
# Merging and removing blocks

Source: `optimize-js/src/opt/optpass_cfg_prune.rs`.  Of the `PassResult` only what decides about another round is
modelled.  The loops over hash maps do not depend on the order.
-/

namespace Verif.Prune

open Verif.Il Verif.Graph Verif.Opt Verif.Ssa

/-- `Inst::remove_phi`: inst.rs 237–243.  Panics on other instructions. -/
def removePhi (i : Inst) (l : Nat) : Option (Inst × Option Arg) :=
  if i.t = .phi ∧ i.labels.length = i.args.length then
    match i.labels.idxOf? l with
    | none => some (i, none)
    | some k => some ({ i with labels := i.labels.eraseIdx k, args := i.args.eraseIdx k }, i.args[k]?)
  else none

/-- `Inst::insert_phi`: inst.rs 245–255.  Panics on other instructions and when there is an entry already. -/
def insertPhi (i : Inst) (l : Nat) (a : Arg) : Option Inst :=
  if i.t = .phi ∧ i.labels.length = i.args.length ∧ l ∉ i.labels then
    some { i with labels := i.labels ++ [l], args := i.args ++ [a] }
  else none

/-- The loop over the phis at the start of a block. -/
def mapPhis (f : Inst → Option Inst) : List Inst → Option (List Inst)
  | [] => some []
  | i :: is =>
    if i.t = .phi then do
      let j ← f i
      let js ← mapPhis f is
      some (j :: js)
    else some (i :: is)

/-- `can_prune_bblock`: optpass_cfg_prune.rs 10–30. -/
def canPrune (parents children : List Nat) (onlyChild isEmpty : Bool) : Bool :=
  (parents.length == 1 && onlyChild) || (children.length == 1 && isEmpty) || (isEmpty && onlyChild)

/-- `maybe_reroot_entry`: optpass_cfg_prune.rs 32–79.  `some none` is the result `false`. -/
def reroot (c : Cfg) : Option (Option Cfg) :=
  if c.entry ≠ 0 then some none
  else
    match Cfg.block c 0 with
    | none => some none
    | some is =>
      if !is.isEmpty || !(c.graph.parentsSorted 0).isEmpty then some none
      else
        match c.graph.childrenSorted 0 with
        | [n] =>
          if n = 0 then some none
          else do
            let js ← Cfg.block c n
            if (js.takeWhile (fun i => i.t == .phi)).any (fun i => i.labels.contains 0 && i.labels.length == 1) then
              some none
            else do
              let js ← mapPhis (fun i => (removePhi i 0).map (·.1)) js
              let g ← c.graph.deleteMany [0]
              let bs ← removeBlock (setBlock c n js).bblocks 0
              some (some { graph := g, bblocks := bs, entry := n })
        | _ => some none

/-- The changes to the graph: optpass_cfg_prune.rs 118–129. -/
def rewire (parents children : List Nat) (cur : Nat) (g : Graph) : Option Graph := do
  let g ← children.foldlM (fun g c => do
    let g ← g.disconnect cur c
    some (parents.foldl (fun g p => g.connect p c) g)) g
  parents.foldlM (fun g p => g.disconnect p cur) g

/-- Instructions are moved to a parent, before its branch, which is adapted: optpass_cfg_prune.rs 134–157. -/
def moveTo (cur : Nat) (children : List Nat) (insts p : List Inst) : Option (List Inst) :=
  match p.getLast? with
  | some i =>
    if i.t = .condGoto then
      match children with
      | [c] =>
        let ls := i.labels.map (fun l => if l = cur then c else l)
        match ls with
        | t :: f :: _ =>
          if t = f then some (p.dropLast ++ insts) else some (p.dropLast ++ insts ++ [{ i with labels := ls }])
        | _ => none
      | _ => none
    else some (p ++ insts)
  | none => some (p ++ insts)

/-- Overwrite the entry for `p`, or make one: optpass_cfg_prune.rs 167–171. -/
def overwrite (i : Inst) (p : Nat) (a : Arg) : Option Inst :=
  match i.labels.idxOf? p with
  | some k => if k < i.args.length then some { i with args := i.args.set k a } else none
  | none => insertPhi i p a

/-- The entry for `cur` becomes entries for its parents: optpass_cfg_prune.rs 165–173. -/
def redirect (cur : Nat) (parents : List Nat) (i : Inst) : Option Inst := do
  let (i, a) ← removePhi i cur
  match a with
  | none => some i
  | some a => parents.foldlM (fun i p => overwrite i p a) i

/-- Change a block; panics if it is missing. -/
def alterBlock (f : List Inst → Option (List Inst)) (c : Cfg) (l : Nat) : Option Cfg := do
  let is ← Cfg.block c l
  let js ← f is
  some (setBlock c l js)

/-- The removal of a block: optpass_cfg_prune.rs 118–175. -/
def removeBlockAt (c : Cfg) (cur : Nat) : Option Cfg := do
  let parents := c.graph.parentsSorted cur
  let children := c.graph.childrenSorted cur
  let insts ← Cfg.block c cur
  let g ← rewire parents children cur c.graph
  let c ← Graph.Cfg.pop { c with graph := g } cur
  let c ← parents.foldlM (alterBlock (moveTo cur children insts)) c
  children.foldlM (alterBlock (mapPhis (redirect cur parents))) c

/-- The body of the loop over the labels: optpass_cfg_prune.rs 93–177.  The new graph, whether the block was
removed, and whether it is an empty leaf. -/
def visitBlock (c : Cfg) (cur : Nat) : Option (Cfg × Bool × Bool) :=
  if cur = c.entry then some (c, false, false)
  else do
    let parents := c.graph.parentsSorted cur
    let children := c.graph.childrenSorted cur
    let onlyChild := parents.all (fun p => (c.graph.childrenSorted p).length == 1)
    let is ← Cfg.block c cur
    if children.contains cur then some (c, false, false)
    else
      let leaf := is.isEmpty && children.isEmpty
      if canPrune parents children onlyChild is.isEmpty then do
        let c ← removeBlockAt c cur
        some (c, true, leaf)
      else some (c, false, leaf)

/-- The loop over the labels, which were collected before it started: optpass_cfg_prune.rs 92–178. -/
def visitBlocks : List Nat → Cfg → Option (Cfg × Bool × List Nat)
  | [], c => some (c, false, [])
  | l :: ls, c => do
    let (c, b, leaf) ← visitBlock c l
    let (c, b', es) ← visitBlocks ls c
    some (c, b || b', if leaf then l :: es else es)

/-- One branch goes to the first empty leaf instead of any other: optpass_cfg_prune.rs 189–212. -/
def mergeBranch (leaves : List Nat) (first : Nat) (c : Cfg) (l : Nat) : Option Cfg := do
  let is ← Cfg.block c l
  match is.getLast? with
  | none => some c
  | some i =>
    if i.t ≠ .condGoto then some c
    else do
      let g ← i.labels.foldlM (fun (g : Graph) (k : Nat) =>
        if leaves.contains k then do
          let g ← g.disconnect l k
          some (g.connect l first)
        else some g) c.graph
      let c := { c with graph := g }
      if i.labels.all (fun k => leaves.contains k) then some (setBlock c l is.dropLast)
      else some (setBlock c l (is.dropLast ++
        [{ i with labels := i.labels.map (fun k => if leaves.contains k then first else k) }]))

/-- The empty leaves become one: optpass_cfg_prune.rs 181–221. -/
def mergeLeaves (leaves : List Nat) (c : Cfg) : Option Cfg :=
  match (sortLabels leaves).filter (fun l => c.graph.labels.contains l) with
  | first :: second :: rest => do
    let ls := first :: second :: rest
    let c ← (c.bblocks.map (·.1)).foldlM (mergeBranch ls first) c
    (second :: rest).foldlM (fun (c : Cfg) (l : Nat) =>
      if (Cfg.block c l).isSome then Graph.Cfg.pop c l else some c) c
  | _ => some c

/-- One iteration of the outer loop: optpass_cfg_prune.rs 84–235, with whether there is another one. -/
def pruneRound (c : Cfg) : Option (Cfg × Bool) := do
  match ← reroot c with
  | some c => some (c, true)
  | none => do
    let (c, b, leaves) ← visitBlocks c.graph.labelsSorted c
    let c ← mergeLeaves leaves c
    let (c, b') ← simplifyPhis c
    some (c, b || b')

/-- `optpass_cfg_prune`: optpass_cfg_prune.rs 81–238.  The fuel bounds the iterations. -/
def cfgPrune : Nat → Cfg → Option Cfg
  | 0, _ => none
  | fuel + 1, c => do
    let (c, b) ← pruneRound c
    if b then cfgPrune fuel c else some c

end Verif.Prune
