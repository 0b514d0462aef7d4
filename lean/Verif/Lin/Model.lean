import Verif.Il.Model
/-!
# From a list of instructions to a control-flow graph

Sources: `optimize-js/src/cfg/bblock.rs`, `optimize-js/src/cfg/cfg.rs`, `optimize-js/src/lib.rs`.

A `HashMap` of blocks is an association list; the label counter does not overflow; a panic is `none`.
-/

namespace Verif.Lin

open Verif.Il Verif.Graph

/-- `DUMMY_LABEL`: il/s2i/mod.rs 16. -/
def dummyLabel : Nat := 2 ^ 32 - 1

/-- The blocks so far, their order, the block being filled and the label counter: bblock.rs 14–17. -/
structure Conv where
  bblocks : List (Nat × List Inst)
  order : List Nat
  cur : Nat
  next : Nat

/-- `bblocks.entry(label).or_default()`. -/
def entryOf (bs : List (Nat × List Inst)) (l : Nat) : List (Nat × List Inst) :=
  if (bs.lookup l).isSome then bs else bs ++ [(l, [])]

/-- `bblock.push(inst)`, where `bblock` is the block of label `l`. -/
def pushTo (bs : List (Nat × List Inst)) (l : Nat) (i : Inst) : List (Nat × List Inst) :=
  bs.map (fun e => if e.1 == l then (e.1, e.2 ++ [i]) else e)

/-- The body of the loop: bblock.rs 19–34. -/
def convertInst (s : Conv) (i : Inst) : Option Conv :=
  match i.t with
  | .label => do
    let l ← i.labels[0]?
    some { bblocks := entryOf s.bblocks l, order := s.order ++ [l], cur := l, next := s.next }
  | .goto | .condGoto =>
    some { bblocks := entryOf (pushTo s.bblocks s.cur i) s.next, order := s.order ++ [s.next], cur := s.next,
           next := s.next + 1 }
  | _ => some { s with bblocks := pushTo s.bblocks s.cur i }

/-- `convert_insts_to_bblocks`: bblock.rs 10–37.  `n` is the next label. -/
def convert (code : List Inst) (n : Nat) : Option Conv :=
  code.foldlM convertInst { bblocks := [(0, [])], order := [0], cur := 0, next := n }

/-- Replace the block of label `l`. -/
def setBlock (bs : List (Nat × List Inst)) (l : Nat) (is : List Inst) : List (Nat × List Inst) :=
  bs.map (fun e => if e.1 == l then (e.1, is) else e)

/-- The last two cases of the loop body: cfg.rs 260–265. -/
def linkFall (order : List Nat) (len k parent : Nat) (s : Graph × List (Nat × List Inst)) :
    Option (Graph × List (Nat × List Inst)) :=
  if k = len - 1 then some s
  else do
    let nx ← order[k + 1]?
    some (s.1.connect parent nx, s.2)

/-- The body of the loop of `from_bblocks`, for index `k`: cfg.rs 235–265. -/
def linkBlock (order : List Nat) (len : Nat) (s : Graph × List (Nat × List Inst)) (k : Nat) :
    Option (Graph × List (Nat × List Inst)) := do
  let parent ← order[k]?
  let is ← s.2.lookup parent
  match is.getLast? with
  | none => linkFall order len k parent s
  | some i =>
    if i.t = .goto then do
      let l ← i.labels[0]?
      some (s.1.connect parent l, setBlock s.2 parent is.dropLast)
    else if i.t = .condGoto then do
      let ls ← i.labels.mapM (fun l => if l = dummyLabel then order[k + 1]? else some l)
      some (ls.foldl (fun g l => g.connect parent l) s.1,
        setBlock s.2 parent (is.dropLast ++ [{ i with labels := ls }]))
    else linkFall order len k parent s

/-- `Cfg::from_bblocks`: cfg.rs 228–272. -/
def fromBBlocks (bs : List (Nat × List Inst)) (order : List Nat) : Option Cfg := do
  let s ← (List.range bs.length).foldlM (linkBlock order bs.length) (Graph.new, bs)
  some { graph := s.1, bblocks := s.2, entry := 0 }

/-- What `build_program_function` does first, with the label counter it goes on with: lib.rs 470–474.  The fuel
for the search is enough by `C27_find_unreachable`. -/
def buildCfg (code : List Inst) (n : Nat) : Option (Cfg × Nat) := do
  let s ← convert code n
  let c ← fromBBlocks s.bblocks s.order
  let (c, _) ← c.findAndPopUnreachable (c.graph.labels.length + 1)
  some (c, s.next)

end Verif.Lin
