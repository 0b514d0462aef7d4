import Verif.Dom.Model
/-!
# Model of the step from a control-flow graph back to JavaScript statements

Sources: `optimize-js/src/decompile/structurer.rs`, `optimize-js/src/decompile/mod.rs`,
`optimize-js/src/analysis/find_conds.rs`, and the part of `optimize-js/src/dom/mod.rs` that computes
post-dominators.  The graph, dominators and natural loops are those of `Verif.Graph` and `Verif.Dom`.

Simplifications: an instruction is a conditional jump or an opaque operation (each operation becomes one
statement; how its operands are spelled is not modelled here); labels are natural numbers; a set or map
is a list; a panic, or a loop that has not ended within the stated fuel, is `none` (`Res.stuck`).
-/

namespace Verif.Structure

open Verif.Graph Verif.Dom

/-- `Inst`: il/inst.rs 202–234.  Everything but `CondGoto` is an operation. -/
inductive Inst (ι α : Type) where
  | op (i : ι)
  | condGoto (cond : α) (t f : Nat)
deriving DecidableEq, Repr

variable {ι α : Type}

/-- `Cfg`: cfg.rs 199–204, with the blocks made of the instructions above. -/
abbrev Prog (ι α : Type) := Cfg (List (Inst ι α))

/-! ## Post-dominators: dom/mod.rs -/

/-- `find_virtual_exit_label`: dom/mod.rs 25–34.  The fuel is one more than the number of labels. -/
def virtualExit (labels : List Nat) : Nat → Nat → Nat
  | 0, exit => exit
  | fuel + 1, exit => if exit ∈ labels then virtualExit labels fuel (exit - 1) else exit

/-- The blocks that can be reached from `n`. -/
def reachSet (g : Graph) (n : Nat) : List Nat :=
  (bfs g (g.labels.length + 2) ([n], [n])).getD []

/-- Whether `n` is in one of the components of `calculate_sink_sccs`: dom/mod.rs 36–144.  The source
finds the strongly connected components with Tarjan's algorithm and keeps those without an edge to
another one; the model says the same by reachability. -/
def inSink (g : Graph) (n : Nat) : Bool := (reachSet g n).all (fun m => (reachSet g m).contains n)

/-- `augment_cfg_for_postdom`: dom/mod.rs 146–188, without its debug assertion. -/
def augment (g : Graph) : Graph × Nat :=
  let labels := g.labelsSorted
  let exit := virtualExit labels (labels.length + 1) 4294967295
  let toExit := labels.filter (fun l => (g.children l).isEmpty || inSink g l)
  (toExit.foldl (fun g n => g.connect n exit) g, exit)

/-- `PostDom::calculate`: dom/mod.rs 216–286 with `POST`. -/
def calculatePostDom (g : Graph) (fuel : Nat) : Option Dom :=
  calculate (augment g).1.parentsSorted (augment g).1.childrenSorted fuel (augment g).2

/-! ## Conditionals: find_conds.rs -/

/-- `CondRegion`: find_conds.rs 12–19; the two node sets are not read by the structurer. -/
structure Region where
  thenEntry : Nat
  elseEntry : Nat
  join : Nat
deriving DecidableEq, Repr

/-- The first loop of `nearest_common_postdom`: find_conds.rs 25–34. -/
def ancestors (d : Dom) : Nat → Nat → List Nat
  | 0, _ => []
  | fuel + 1, n =>
    n :: (match d.idomOf n with
      | none => []
      | some p => if p == n then [] else ancestors d fuel p)

/-- The second loop of `nearest_common_postdom`: find_conds.rs 37–48. -/
def firstAncestor (d : Dom) (anc : List Nat) : Nat → Nat → Nat
  | 0, _ => d.entry
  | fuel + 1, n =>
    if n ∈ anc then n
    else match d.idomOf n with
      | none => d.entry
      | some p => if p == n then d.entry else firstAncestor d anc fuel p

/-- `nearest_common_postdom`: find_conds.rs 21–49. -/
def nearestCommon (d : Dom) (a b : Nat) : Nat :=
  if a == b then a
  else firstAncestor d (d.entry :: ancestors d (d.postorder.length + 1) a) (d.postorder.length + 1) b

/-- The two successors of a block: find_conds.rs 94–106. -/
def succPair (P : Prog ι α) (label : Nat) : Option (Nat × Nat) :=
  match (P.bblocks.lookup label).bind List.getLast? with
  | some (.condGoto _ t f) => some (t, f)
  | _ =>
    match P.graph.childrenSorted label with
    | [a, b] => some (a, b)
    | _ => none

/-- The body of the loop of `find_conds`: find_conds.rs 92–127. -/
def regionOf (P : Prog ι α) (doms pdoms : List (Nat × List Nat)) (pd : Dom) (label : Nat) :
    Option Region :=
  match succPair P label with
  | none => none
  | some (t, e) =>
    if !(dominates doms label t) && !(dominates doms label e) then none
    else
      let join := nearestCommon pd t e
      if dominates pdoms join label then some ⟨t, e, join⟩ else none

/-- `find_conds`: find_conds.rs 87–130, as a map. -/
def findConds (P : Prog ι α) (doms pdoms : List (Nat × List Nat)) (pd : Dom) (label : Nat) :
    Option Region :=
  if label ∈ P.graph.labels then regionOf P doms pdoms pd label else none

/-! ## Loops: structurer.rs 178–312 -/

/-- `LoopInfo`: structurer.rs 178–185; `children` is written but never read. -/
structure LoopInfo where
  header : Nat
  nodes : List Nat
  follow : Option Nat
  parent : Option Nat
deriving DecidableEq, Repr

/-- `LoopForest`: structurer.rs 187–191; `header_to_label` is the position in `loops`. -/
structure LoopForest where
  loops : List LoopInfo
  valid : Bool
deriving DecidableEq, Repr

/-- `dedup` after sorting: structurer.rs 303–304. -/
def dedup : List Nat → List Nat
  | [] => []
  | x :: xs => if xs.contains x then dedup xs else x :: dedup xs

/-- `calculate_follow`: structurer.rs 294–312. -/
def follow (g : Graph) (pd : Dom) (nodes : List Nat) : Option Nat :=
  match dedup (sortLabels (nodes.flatMap (fun n =>
      (g.children n).filter (fun c => !(nodes.contains c))))) with
  | [] => none
  | [e] => some e
  | es => pd.lcaAll es

/-- `is_subset` on `HashSet`. -/
def isSubset (a b : List Nat) : Bool := a.all (fun x => b.contains x)

/-- `is_disjoint` on `HashSet`. -/
def isDisjoint (a b : List Nat) : Bool := a.all (fun x => !(b.contains x))

/-- The inner loop that looks for the parent of loop `i`: structurer.rs 217–241.  The pair is the parent
found so far, with its size, and whether nesting is still valid. -/
def parentStep (i : Nat) (nodesI : List Nat) (s : Option (Nat × Nat) × Bool) (e : LoopInfo × Nat) :
    Option (Nat × Nat) × Bool :=
  if e.2 == i then s
  else if nodesI.length < e.1.nodes.length && isSubset nodesI e.1.nodes then
    let size := e.1.nodes.length
    let replace := match s.1 with
      | some (ph, ps) => decide (size < ps) || (size == ps && decide (e.1.header < ph))
      | none => true
    if replace then (some (e.1.header, size), s.2) else s
  else if !(isSubset e.1.nodes nodesI) && !(isDisjoint nodesI e.1.nodes) then (s.1, false)
  else s

/-- `LoopForest::new`: structurer.rs 194–264. -/
def LoopForest.new (g : Graph) (pd : Dom) (raw : List (Nat × List Nat)) : LoopForest :=
  let headers := sortLabels (raw.map (·.1))
  let loops := headers.map (fun h =>
    let nodes := (raw.lookup h).getD []
    LoopInfo.mk h nodes (follow g pd nodes) none)
  let found := loops.zipIdx.map (fun e => loops.zipIdx.foldl (parentStep e.2 e.1.nodes) (none, true))
  ⟨(loops.zip found).map (fun e => { e.1 with parent := e.2.1.map (·.1) }),
   found.all (·.2)⟩

/-- `LoopForest::label_for_header`: structurer.rs 270–272. -/
def LoopForest.labelForHeader (f : LoopForest) (h : Nat) : Option Nat :=
  f.loops.findIdx? (fun i => i.header == h)

/-- `LoopForest::parent`: structurer.rs 278–281. -/
def LoopForest.parentOf (f : LoopForest) (k : Nat) : Option Nat := do
  let info ← f.loops[k]?
  let h ← info.parent
  f.labelForHeader h

/-- `LoopForest::ancestor_containing`: structurer.rs 283–291.  The fuel is the number of loops. -/
def LoopForest.ancestor (f : LoopForest) (node : Nat) : Nat → Nat → Option Nat
  | 0, _ => none
  | fuel + 1, k =>
    match f.parentOf k with
    | none => none
    | some p =>
      if ((f.loops[p]?.map (·.nodes)).getD []).contains node then some p
      else f.ancestor node fuel p

/-- `reachable_from_entry`: structurer.rs 314–326. -/
def reachable (P : Prog ι α) : List Nat := reachSet P.graph P.entry

/-! ## Trees: structurer.rs 24–69, 149–155 -/

/-- `Terminator`: structurer.rs 24–29. -/
inductive Term (α : Type) where
  | goto (l : Nat)
  | condGoto (cond : α) (t f : Nat)
  | condTrue (t f : Nat)
  | stop
deriving DecidableEq, Repr

/-- `StateBlock`: structurer.rs 31–36. -/
structure StateBlock (ι α : Type) where
  label : Nat
  insts : List (Inst ι α)
  term : Term α
deriving DecidableEq, Repr

/-- `ControlTree`: structurer.rs 38–69, without `StateMachine`, which is only ever the whole result.
`Break` always targets a loop. -/
inductive Tree (ι α : Type) where
  | seq (ts : List (Tree ι α))
  | block (label : Nat) (insts : List (Inst ι α))
  | ite (condBlock : Nat) (insts : List (Inst ι α)) (cond : α) (t e : Tree ι α) (join : Nat)
  | loop (header : Nat) (follow : Option Nat) (body : Tree ι α) (label : Nat)
  | brk (label : Nat)
  | cont (label : Nat)

/-- The result of `structure_cfg`: a structured tree or a state machine. -/
inductive Control (ι α : Type) where
  | tree (t : Tree ι α)
  | machine (entry : Nat) (blocks : List (StateBlock ι α))

/-- `wrap_seq`: structurer.rs 149–155. -/
def wrapSeq : List (Tree ι α) → Tree ι α
  | [t] => t
  | ts => .seq ts

/-! ## The structurer: structurer.rs 328–628 -/

/-- `Result<_, ()>`; `stuck` is a panic or the end of the fuel. -/
inductive Res (β : Type) where
  | stuck
  | err
  | ok (b : β)

/-- The `?` operator. -/
def Res.bind {β γ : Type} : Res β → (β → Res γ) → Res γ
  | .stuck, _ => .stuck
  | .err, _ => .err
  | .ok b, f => f b

/-- `StructCtx`: structurer.rs 328–334, without `consumed`, which is passed along. -/
structure Ctx (ι α : Type) where
  prog : Prog ι α
  conds : Nat → Option Region
  forest : LoopForest
  reachable : List Nat

/-- Whether `label` is the header of the current loop: structurer.rs 379–380. -/
def Ctx.isHeader (x : Ctx ι α) (loop : Option Nat) (label : Nat) : Bool :=
  match loop.bind (fun k => x.forest.loops[k]?) with
  | some info => info.header == label
  | none => false

/-- `resolve_single_successor`: structurer.rs 456–484; the left side is `Node`, the right side `Next`. -/
def Ctx.resolve (x : Ctx ι α) (loop : Option Nat) (succ : Nat) (allowed : List Nat) :
    Res (Tree ι α ⊕ Nat) :=
  match loop with
  | some k =>
    match x.forest.loops[k]? with
    | none => .stuck
    | some info =>
      if succ == info.header then .ok (.inl (.cont k))
      else if info.follow == some succ then .ok (.inl (.brk k))
      else match x.forest.ancestor succ x.forest.loops.length k with
        | some a => .ok (.inl (.brk a))
        | none => if allowed.contains succ then .ok (.inr succ) else .err
  | none => if allowed.contains succ then .ok (.inr succ) else .err

/-- `structure_block`: structurer.rs 425–454.  The result is the nodes, the next label and the labels
consumed. -/
def Ctx.structBlock (x : Ctx ι α) (label : Nat) (allowed : List Nat) (loop : Option Nat)
    (consumed : List Nat) : Res (List (Tree ι α) × Option Nat × List Nat) :=
  match x.prog.bblocks.lookup label with
  | none => .stuck
  | some insts =>
    match x.prog.graph.childrenSorted label with
    | [] => .ok ([.block label insts], none, label :: consumed)
    | [succ] =>
      (x.resolve loop succ allowed).bind fun
        | .inl t => .ok ([.block label insts, t], none, label :: consumed)
        | .inr n => .ok ([.block label insts], some n, label :: consumed)
    | _ => .err

/-- `GuardInfo`: structurer.rs 598–603. -/
structure Guard (ι α : Type) where
  insts : List (Inst ι α)
  cond : α
  inside : Nat
  outside : Nat

/-- `loop_guard`: structurer.rs 605–628. -/
def loopGuard (P : Prog ι α) (info : LoopInfo) : Option (Guard ι α) :=
  match P.bblocks.lookup info.header with
  | none => none
  | some block =>
    match block.getLast? with
    | some (.condGoto c t f) =>
      if info.nodes.contains t && !(info.nodes.contains f) then
        if info.follow != some f then none else some ⟨block.dropLast, c, t, f⟩
      else if info.nodes.contains f && !(info.nodes.contains t) then
        if info.follow != some t then none else some ⟨block.dropLast, c, f, t⟩
      else none
    | _ => none

/-- A recursive call of `structure_seq`: start, boundary, allowed labels, current loop, consumed labels. -/
abbrev Call (ι α : Type) :=
  Nat → Option Nat → List Nat → Option Nat → List Nat → Res (Tree ι α × List Nat)

/-- `structure_if`: structurer.rs 486–540.  Where an entry is the join the source makes an empty sequence
(507, 520), which is what `structure_seq` gives for it too (364–368). -/
def Ctx.structIf (_x : Ctx ι α) (call : Call ι α) (label : Nat) (r : Region) (insts : List (Inst ι α))
    (cond : α) (allowed : List Nat) (loop : Option Nat) (consumed : List Nat) :
    Res (List (Tree ι α) × Option Nat × List Nat) :=
  (call r.thenEntry (some r.join) allowed loop (label :: consumed)).bind fun a =>
  (call r.elseEntry (some r.join) allowed loop a.2).bind fun b =>
  .ok ([.ite label insts cond a.1 b.1 r.join], some r.join, b.2)

/-- `structure_loop`: structurer.rs 542–590. -/
def Ctx.structLoop (x : Ctx ι α) (call : Call ι α) (k : Nat) (info : LoopInfo) (consumed : List Nat) :
    Res (List (Tree ι α) × Option Nat × List Nat) :=
  match loopGuard x.prog info with
  | some g =>
    (if g.inside == info.header then .ok (.seq [], info.header :: consumed)
      else call g.inside none info.nodes (some k) (info.header :: consumed)).bind fun a =>
    .ok ([.loop info.header info.follow
      (.seq [.ite info.header g.insts g.cond a.1 (.brk k) g.outside]) k], info.follow, a.2)
  | none =>
    (call info.header none info.nodes (some k) consumed).bind fun a =>
    .ok ([.loop info.header info.follow a.1 k], info.follow, a.2)

/-- The loop that starts at `label`, if it is to be opened here: structurer.rs 394–396. -/
def Ctx.opens (x : Ctx ι α) (loop : Option Nat) (label : Nat) : Option (Nat × LoopInfo) :=
  match x.forest.labelForHeader label with
  | none => none
  | some k => if x.forest.parentOf k == loop then (x.forest.loops[k]?).map (fun i => (k, i)) else none

/-- The conditional at `label`, if the block ends with a conditional jump: structurer.rs 404–411,
496–505. -/
def Ctx.branches (x : Ctx ι α) (label : Nat) : Option (Region × List (Inst ι α) × α) :=
  match x.conds label with
  | none => none
  | some r =>
    match x.prog.bblocks.lookup label with
    | none => none
    | some block =>
      match block.getLast? with
      | some (.condGoto c _ _) => some (r, block.dropLast, c)
      | _ => none

/-- One turn of the `while` loop of `structure_seq` after its checks: structurer.rs 394–420. -/
def Ctx.node (x : Ctx ι α) (call : Call ι α) (label : Nat) (allowed : List Nat) (loop : Option Nat)
    (consumed : List Nat) : Res (List (Tree ι α) × Option Nat × List Nat) :=
  match x.opens loop label with
  | some (k, info) => x.structLoop call k info consumed
  | none =>
    match x.branches label with
    | some (r, insts, c) => x.structIf call label r insts c allowed loop consumed
    | none => x.structBlock label allowed loop consumed

/-- The `while` loop of `structure_seq`: structurer.rs 369–421. -/
def Ctx.walk (x : Ctx ι α) : Nat → Option Nat → Option Nat → List Nat → Option Nat → List Nat →
    Res (List (Tree ι α) × List Nat)
  | 0, _, _, _, _, _ => .stuck
  | _ + 1, none, _, _, _, consumed => .ok ([], consumed)
  | fuel + 1, some label, boundary, allowed, loop, consumed =>
    if boundary == some label then .ok ([], consumed)
    else if x.isHeader loop label && consumed.contains label then
      .ok ([.cont (loop.getD 0)], consumed)
    else if !(allowed.contains label) then .err
    else if consumed.contains label then .err
    else
      (x.node (fun start boundary allowed loop consumed =>
          (x.walk fuel (some start) boundary allowed loop consumed).bind fun r =>
            .ok (wrapSeq r.1, r.2))
        label allowed loop consumed).bind fun a =>
      (x.walk fuel a.2.1 boundary allowed loop a.2.2).bind fun b =>
      .ok (a.1 ++ b.1, b.2)

/-- `StructCtx::structure`: structurer.rs 342–355.  The outer `none` is a panic or the end of the fuel. -/
def Ctx.structure (x : Ctx ι α) (fuel : Nat) : Option (Option (Tree ι α)) :=
  if !x.forest.valid then some none
  else match x.walk fuel (some x.prog.entry) none x.reachable none [] with
    | .stuck => none
    | .err => some none
    | .ok (ts, consumed) =>
      if isSubset consumed x.reachable && isSubset x.reachable consumed then some (some (wrapSeq ts))
      else some none

/-! ## The state machine: structurer.rs 630–671 -/

/-- `build_terminator`: structurer.rs 642–671. -/
def buildTerm (block : List (Inst ι α)) (children : List Nat) : List (Inst ι α) × Term α :=
  match block.getLast? with
  | some (.condGoto c t f) => (block.dropLast, .condGoto c t f)
  | _ =>
    (block, match sortLabels children with
      | [] => .stop
      | [a] => .goto a
      | [a, b] => .condTrue a b
      | _ => .stop)

/-- `build_state_machine`: structurer.rs 630–640. -/
def buildMachine (P : Prog ι α) : Option (Control ι α) := do
  let blocks ← P.graph.labelsSorted.mapM (fun l => do
    let b ← P.bblocks.lookup l
    let r := buildTerm b (P.graph.children l)
    some (StateBlock.mk l r.1 r.2))
  some (.machine 0 blocks)

/-- The context of `structure_cfg`: structurer.rs 158–168. -/
def context (P : Prog ι α) : Option (Ctx ι α) := do
  let fuel := P.graph.labels.length + 4
  let dom ← calculateDom P.graph fuel P.entry
  let pd ← calculatePostDom P.graph fuel
  let doms ← dom.dominatesGraph
  let pdoms ← pd.dominatesGraph
  let raw ← findLoops P.graph dom
  some ⟨P, findConds P doms pdoms pd, LoopForest.new P.graph pd raw, reachable P⟩

/-- `structure_cfg`: structurer.rs 157–176. -/
def structureCfg (P : Prog ι α) (fuel : Nat) : Option (Control ι α) := do
  let x ← context P
  match ← x.structure fuel with
  | some t => some (.tree t)
  | none => buildMachine P

/-! ## Lowering to statements: decompile/mod.rs -/

/-- The test of an `if`: an operand, or a comparison of the state variable with a label. -/
inductive Test (α : Type) where
  | arg (a : α)
  | stateIs (n : Nat)
  | always
deriving DecidableEq, Repr

/-- The statements that come out: parse-js ast `Stmt`, the kinds used.  A loop is `while (true)`, with a
label when `name` is given; the name made for a loop is represented by the loop's number (`fresh` makes
different names for different loops). -/
inductive Js (ι α : Type) where
  | op (i : ι)
  | setState (n : Nat)
  | ite (c : Test α) (t e : List (Js ι α))
  | loop (name : Option Nat) (body : List (Js ι α))
  | brk (name : Option Nat)
  | cont (name : Option Nat)

/-- `lower_insts`: decompile/mod.rs 561–572; a conditional jump gives no statement (557). -/
def lowerInsts (is : List (Inst ι α)) : List (Js ι α) :=
  is.filterMap (fun i => match i with
    | .op i => some (.op i)
    | .condGoto _ _ _ => none)

/-- `loop_labels.get(label).cloned()`: decompile/mod.rs 632, 638, 644. -/
def nameOf (named : List Nat) (k : Nat) : Option Nat := if named.contains k then some k else none

mutual
/-- `lower_tree_with_stack`: decompile/mod.rs 587–648 (the stack it keeps is not read).  An empty `else`
block is left out in the source. -/
def lower (named : List Nat) : Tree ι α → List (Js ι α)
  | .seq ts => lowerAll named ts
  | .block _ insts => lowerInsts insts
  | .ite _ insts c t e _ => lowerInsts insts ++ [.ite (.arg c) (lower named t) (lower named e)]
  | .loop _ _ body k => [.loop (nameOf named k) (lower named body)]
  | .brk k => [.brk (nameOf named k)]
  | .cont k => [.cont (nameOf named k)]
/-- The `Seq` case of `lower_tree_with_stack`: decompile/mod.rs 593–599. -/
def lowerAll (named : List Nat) : List (Tree ι α) → List (Js ι α)
  | [] => []
  | t :: ts => lower named t ++ lowerAll named ts
end

mutual
/-- `collect_labeled_loops`: decompile/mod.rs 767–806; `top` is the last element of the stack. -/
def named (top : Option Nat) : Tree ι α → List Nat
  | .seq ts => namedAll top ts
  | .block _ _ => []
  | .ite _ _ _ t e _ => named top t ++ named top e
  | .loop _ _ body k => named (some k) body
  | .brk k => if top != some k then [k] else []
  | .cont k => if top != some k then [k] else []
/-- The `Seq` case of `collect_labeled_loops`: decompile/mod.rs 770–774. -/
def namedAll (top : Option Nat) : List (Tree ι α) → List Nat
  | [] => []
  | t :: ts => named top t ++ namedAll top ts
end

/-- The terminator of a state: decompile/mod.rs 454–470. -/
def lowerTerm : Term α → List (Js ι α)
  | .goto l => [.setState l]
  | .condGoto c t f => [.ite (.arg c) [.setState t] [.setState f]]
  | .condTrue t f => [.ite .always [.setState t] [.setState f]]
  | .stop => [.brk none]

/-- The chain of `if`s: decompile/mod.rs 479–488.  The blocks come sorted already. -/
def lowerChain : List (StateBlock ι α) → List (Js ι α)
  | [] => [.brk none]
  | b :: bs => [.ite (.stateIs b.label) (lowerInsts b.insts ++ lowerTerm b.term) (lowerChain bs)]

/-- `lower_tree` on the result of `structure_cfg`: decompile/mod.rs 71–88, 424–495, 582–585. -/
def lowerControl : Control ι α → List (Js ι α)
  | .tree t => lower (named none t) t
  | .machine entry blocks => [.setState entry, .loop none (lowerChain blocks)]

/-- The statements for a control-flow graph: `program_to_ast`, decompile/mod.rs 66–96, without the
declarations of variables. -/
def decompile (P : Prog ι α) (fuel : Nat) : Option (List (Js ι α)) :=
  (structureCfg P fuel).map lowerControl

end Verif.Structure
