import Verif.Il.Model
/-!
# Model of the dataflow engine, liveness, interference and register allocation of `optimize-js`

Sources: `optimize-js/src/analysis/{dataflow,liveness,interference,registers,single_use_insts}.rs`,
`optimize-js/src/decompile/regalloc.rs`.

Simplifications, all of them uniform:
* labels, variables and instruction numbers are natural numbers; a `HashMap` is an association list and a
  `HashSet` a list without duplicates;
* a panic (`unwrap` of `None`, an index that does not exist, a failed `assert!`) is the result `none`;
* loops without an obvious bound get a fuel argument; running out of fuel is also `none`, and the theorems
  show that it does not happen from some fuel on;
* an analysis does not change itself (`&mut self` in the trait; no implementation in the repository uses it).
-/

namespace Verif.Flow

open Verif.Graph Verif.Il

/-- `dedup` after sorting, or collecting into a set: one copy of every element. -/
def dedup (xs : List Nat) : List Nat := setExtend [] xs

/-- `Direction`: dataflow.rs 7–11. -/
inductive Direction where
  | forward | backward
deriving DecidableEq, Repr

/-- `BlockState`: dataflow.rs 39–43. -/
structure BlockState (σ : Type) where
  entry : σ
  exit : σ
deriving DecidableEq, Repr

/-- `DataFlowAnalysis`: dataflow.rs 51–77.  `boundaryState` is the value of the method on the boundary of
the run. -/
structure Analysis (σ : Type) where
  direction : Direction
  bottom : σ
  boundaryState : σ
  meet : List (Nat × σ) → σ
  applyInst : Nat → Nat → Inst → σ → σ

/-- The forward loop of `apply_to_block`: dataflow.rs 83–87; `k` is the number of the first instruction. -/
def applyForward {σ : Type} (f : Nat → Inst → σ → σ) : Nat → List Inst → σ → σ
  | _, [], s => s
  | k, i :: is, s => applyForward f (k + 1) is (f k i s)

/-- The backward loop of `apply_to_block`: dataflow.rs 88–92. -/
def applyBackward {σ : Type} (f : Nat → Inst → σ → σ) : Nat → List Inst → σ → σ
  | _, [], s => s
  | k, i :: is, s => f k i (applyBackward f (k + 1) is s)

/-- `apply_to_block`: dataflow.rs 80–95. -/
def Analysis.applyBlock {σ : Type} (a : Analysis σ) (label : Nat) (block : List Inst) (s : σ) : σ :=
  match a.direction with
  | .forward => applyForward (a.applyInst label) 0 block s
  | .backward => applyBackward (a.applyInst label) 0 block s

/-- `VirtualExit`: dataflow.rs 191–195. -/
structure VirtualExit where
  label : Nat
  predecessors : List Nat
deriving DecidableEq, Repr

/-- `FlowGraph`: dataflow.rs 197–201. -/
structure FlowGraph where
  cfg : Il.Cfg
  direction : Direction
  virtualExit : Option VirtualExit

/-- `FlowGraph::labels`: dataflow.rs 212–221. -/
def FlowGraph.labels (f : FlowGraph) : List Nat :=
  sortLabels (dedup (f.cfg.graph.labelsSorted ++ f.cfg.bblocks.map (·.1) ++
    (f.virtualExit.map (·.label)).toList))

/-- `FlowGraph::virtual_exit_label`: dataflow.rs 231–233. -/
def FlowGraph.virtualExitLabel (f : FlowGraph) : Option Nat := f.virtualExit.map (·.label)

/-- `FlowGraph::block`: dataflow.rs 223–229. -/
def FlowGraph.block (f : FlowGraph) (label : Nat) : Option (List Inst) :=
  if some label = f.virtualExitLabel then some [] else Cfg.block f.cfg label

/-- The node list of `predecessors` before it is sorted: dataflow.rs 239–249.  `binary_search` on the
sorted list of exit predecessors is membership. -/
def FlowGraph.rawPredecessors (f : FlowGraph) (label : Nat) : List Nat :=
  match f.direction with
  | .forward => f.cfg.graph.parentsSorted label
  | .backward =>
    f.cfg.graph.childrenSorted label ++
      match f.virtualExit with
      | some e => if label ∈ e.predecessors then [e.label] else []
      | none => []

/-- `FlowGraph::predecessors`: dataflow.rs 235–253. -/
def FlowGraph.predecessors (f : FlowGraph) (label : Nat) : List Nat :=
  if some label = f.virtualExitLabel then [] else sortLabels (dedup (f.rawPredecessors label))

/-- The node list of `successors` before it is sorted: dataflow.rs 264–274. -/
def FlowGraph.rawSuccessors (f : FlowGraph) (label : Nat) : List Nat :=
  match f.direction with
  | .backward => f.cfg.graph.parentsSorted label
  | .forward =>
    f.cfg.graph.childrenSorted label ++
      match f.virtualExit with
      | some e => if label ∈ e.predecessors then [e.label] else []
      | none => []

/-- `FlowGraph::successors`: dataflow.rs 255–278. -/
def FlowGraph.successors (f : FlowGraph) (label : Nat) : List Nat :=
  match f.virtualExit with
  | some e =>
    if label = e.label then
      match f.direction with
      | .forward => []
      | .backward => e.predecessors
    else sortLabels (dedup (f.rawSuccessors label))
  | none => sortLabels (dedup (f.rawSuccessors label))

/-- `blocks: HashMap<u32, BlockState<A::State>>`. -/
abbrev Blocks (σ : Type) := List (Nat × BlockState σ)

/-- `*blocks.get_mut(&label).unwrap() = state` on an existing key. -/
def setBlock {σ : Type} (b : Blocks σ) (l : Nat) (s : BlockState σ) : Blocks σ :=
  b.map (fun e => if e.1 == l then (e.1, s) else e)

/-- The state a block passes on: dataflow.rs 154–157. -/
def outSide {σ : Type} (d : Direction) (s : BlockState σ) : σ :=
  match d with
  | .forward => s.exit
  | .backward => s.entry

/-- The pair stored for a block: dataflow.rs 163–172. -/
def mkState {σ : Type} (d : Direction) (incoming outgoing : σ) : BlockState σ :=
  match d with
  | .forward => ⟨incoming, outgoing⟩
  | .backward => ⟨outgoing, incoming⟩

/-- The collection of the inputs of a block: dataflow.rs 151–158. -/
def inputs {σ : Type} (d : Direction) (b : Blocks σ) : List Nat → Option (List (Nat × σ))
  | [] => some []
  | p :: ps => do
    let s ← b.lookup p
    let r ← inputs d b ps
    some ((p, outSide d s) :: r)

/-- The state computed for a block at one visit: dataflow.rs 148–172. -/
def newState {σ : Type} (a : Analysis σ) (f : FlowGraph) (boundary : Nat) (b : Blocks σ) (l : Nat) :
    Option (BlockState σ) := do
  let incoming ← if l = boundary then some a.boundaryState
    else (inputs a.direction b (f.predecessors l)).map a.meet
  let block ← f.block l
  some (mkState a.direction incoming (a.applyBlock l block incoming))

/-- The `while let Some(label) = worklist.pop_front()` loop: dataflow.rs 146–183.  The set `queued` always
has the elements of `worklist`, so the model asks the worklist (`setExtend` appends what is not yet in it). -/
def loop {σ : Type} [DecidableEq σ] (a : Analysis σ) (f : FlowGraph) (boundary : Nat) :
    Nat → Blocks σ → List Nat → Option (Blocks σ)
  | _, b, [] => some b
  | 0, _, _ :: _ => none
  | fuel + 1, b, l :: wl =>
    match newState a f boundary b l with
    | none => none
    | some new =>
      match b.lookup l with
      | none => none
      | some old =>
        if old = new then loop a f boundary fuel b wl
        else loop a f boundary fuel (setBlock b l new) (setExtend wl (f.successors l))

/-- The initial map: dataflow.rs 130–140. -/
def initBlocks {σ : Type} (a : Analysis σ) (f : FlowGraph) : Blocks σ :=
  f.labels.map (fun l => (l, ⟨a.bottom, a.bottom⟩))

/-- `run_dataflow` once the boundary is resolved: dataflow.rs 128–189. -/
def runDataflow {σ : Type} [DecidableEq σ] (a : Analysis σ) (f : FlowGraph) (boundary : Nat) (fuel : Nat) :
    Option (Blocks σ) :=
  loop a f boundary fuel (initBlocks a f) [boundary]

/-! ## The virtual exit -/

/-- `next_unused_label`: dataflow.rs 303–320.  Labels are unbounded here, so the first candidate is free and
the search that follows in the source is not reached. -/
def nextUnusedLabel (c : Il.Cfg) : Nat := c.graph.labels.foldl max 0 + 1

/-- `calculate_virtual_exit`: dataflow.rs 281–301.  The argument `sinks` is the result of `sink_scc_nodes`
(dataflow.rs 322–422), which is used only when no node is terminal. -/
def calculateVirtualExit (c : Il.Cfg) (sinks : List Nat) : VirtualExit :=
  let terminals := sortLabels (c.graph.labels.filter (fun l => (c.graph.children l).isEmpty))
  { label := nextUnusedLabel c, predecessors := if terminals.isEmpty then sinks else terminals }

/-! ## Liveness -/

/-- A place in the program: block label and number of the instruction. -/
abbrev Loc := Nat × Nat

/-- `inlines: HashMap<(u32, usize), (u32, usize)>`. -/
abbrev Inlines := List (Loc × Loc)

/-- `BitSet`: liveness.rs 6–9.  The words together are one natural number. -/
abbrev BitSet := Nat

/-- `BitSet::insert`: liveness.rs 18–21. -/
def BitSet.insert (s : BitSet) (i : Nat) : BitSet := s ||| (1 <<< i)

/-- `BitSet::remove`: liveness.rs 23–26. -/
def BitSet.remove (s : BitSet) (i : Nat) : BitSet := s ^^^ (s &&& (1 <<< i))

/-- `BitSet::union_with`: liveness.rs 28–33. -/
def BitSet.union (s t : BitSet) : BitSet := s ||| t

/-- The chain `while let Some(next) = inlines.get(&dest)`: liveness.rs 171–174. -/
def finalDest (inl : Inlines) : Nat → Loc → Option Loc
  | 0, _ => none
  | fuel + 1, d =>
    match inl.lookup d with
    | some d' => finalDest inl fuel d'
    | none => some d

/-- `compute_additional_use_vars`: liveness.rs 162–184, as the list of all `(dest, var)` insertions. -/
def additionalUses (c : Il.Cfg) (inl : Inlines) (inlined : List Nat) : Inlines → Option (List (Loc × Nat))
  | [] => some []
  | (src, next) :: rest => do
    let dest ← finalDest inl (inl.length + 1) next
    let block ← Cfg.block c src.1
    let inst ← block[src.2]?
    let r ← additionalUses c inl inlined rest
    some ((inst.argVars.filter (fun v => !(inlined.contains v))).map (fun v => (dest, v)) ++ r)

/-- The variables of one instruction: targets, then arguments (liveness.rs 197–208, regalloc.rs 23–34). -/
def Inst.vars (i : Inst) : List Nat := i.tgts ++ i.argVars

/-- The `for (idx, inst) in block.iter().enumerate()` loop of `collect_tracked_vars`: liveness.rs 193–209. -/
def trackedInBlock (inl : Inlines) (inlined : List Nat) (label : Nat) : Nat → List Inst → List Nat
  | _, [] => []
  | k, i :: is =>
    (if (inl.lookup (label, k)).isSome then []
      else (Inst.vars i).filter (fun v => !(inlined.contains v))) ++
      trackedInBlock inl inlined label (k + 1) is

/-- `collect_tracked_vars`: liveness.rs 186–212. -/
def trackedVars (c : Il.Cfg) (inl : Inlines) (inlined : List Nat) : List Nat :=
  c.bblocks.flatMap (fun e => trackedInBlock inl inlined e.1 0 e.2)

/-- `LivenessAnalysis`: liveness.rs 59–65. -/
structure Liveness where
  additional : List (Loc × Nat)
  inlines : Inlines
  bitToVar : List Nat
deriving DecidableEq, Repr

/-- `LivenessAnalysis::new`: liveness.rs 68–104. -/
def Liveness.new (c : Il.Cfg) (inl : Inlines) (inlined : List Nat) : Option Liveness := do
  let add ← additionalUses c inl inlined inl
  some { additional := add, inlines := inl,
         bitToVar := sortLabels (dedup (trackedVars c inl inlined ++ add.map (·.2))) }

/-- `var_to_bit.get(&var)`: liveness.rs 81–85. -/
def Liveness.bit (lv : Liveness) (v : Nat) : Option Nat :=
  if v ∈ lv.bitToVar then some (lv.bitToVar.idxOf v) else none

/-- Insertion of every variable of a list that has a bit. -/
def Liveness.insertAll (lv : Liveness) (vs : List Nat) (s : BitSet) : BitSet :=
  vs.foldl (fun s v => match lv.bit v with
    | some i => BitSet.insert s i
    | none => s) s

/-- Removal of every variable of a list that has a bit. -/
def Liveness.removeAll (lv : Liveness) (vs : List Nat) (s : BitSet) : BitSet :=
  vs.foldl (fun s v => match lv.bit v with
    | some i => BitSet.remove s i
    | none => s) s

/-- `additional_uses.get(&loc)` as a bit set: liveness.rs 87–96. -/
def Liveness.additionalAt (lv : Liveness) (loc : Loc) : BitSet :=
  lv.insertAll ((lv.additional.filter (fun e => e.1 == loc)).map (·.2)) 0

/-- `apply_to_instruction`: liveness.rs 134–159. -/
def Liveness.applyInst (lv : Liveness) (label idx : Nat) (inst : Inst) (s : BitSet) : BitSet :=
  if (lv.inlines.lookup (label, idx)).isSome then s
  else
    BitSet.union (lv.insertAll inst.argVars (lv.removeAll inst.tgts s)) (lv.additionalAt (label, idx))

/-- `impl DataFlowAnalysis for LivenessAnalysis`: liveness.rs 117–160. -/
def Liveness.analysis (lv : Liveness) : Analysis BitSet :=
  { direction := .backward
    bottom := 0
    boundaryState := 0
    meet := fun states => states.foldl (fun m s => BitSet.union m s.2) 0
    applyInst := lv.applyInst }

/-- `bitset_to_vars`: liveness.rs 106–114. -/
def Liveness.toVars (lv : Liveness) (s : BitSet) : List Nat :=
  ((List.range lv.bitToVar.length).filter (fun i => s.testBit i)).filterMap (fun i => lv.bitToVar[i]?)

/-- The backward walk over a block in `calculate_live_ins`: liveness.rs 229–235.  Returns the state before
the instructions and the recorded live-in sets. -/
def liveInBlock (lv : Liveness) (label : Nat) : Nat → List Inst → BitSet → BitSet × List (Loc × List Nat)
  | _, [], s => (s, [])
  | k, i :: is, s =>
    let (s, out) := liveInBlock lv label (k + 1) is s
    if (lv.inlines.lookup (label, k)).isSome then (s, out)
    else
      let s := lv.applyInst label k i s
      (s, ((label, k), lv.toVars s) :: out)

/-- The `for label in cfg.graph.labels_sorted()` loop of `calculate_live_ins`: liveness.rs 223–236. -/
def liveInBlocks (lv : Liveness) (c : Il.Cfg) (r : Blocks BitSet) : List Nat →
    Option (List (Loc × List Nat))
  | [] => some []
  | l :: ls => do
    let exit := match r.lookup l with
      | some b => b.exit
      | none => 0
    let block ← Cfg.block c l
    let rest ← liveInBlocks lv c r ls
    some ((liveInBlock lv l 0 block exit).2 ++ rest)

/-- `calculate_live_ins`: liveness.rs 214–238; `sinks` as in `calculateVirtualExit`. -/
def calculateLiveIns (c : Il.Cfg) (sinks : List Nat) (inl : Inlines) (inlined : List Nat) (fuel : Nat) :
    Option (List (Loc × List Nat)) := do
  let lv ← Liveness.new c inl inlined
  let exit := calculateVirtualExit c sinks
  let r ← runDataflow lv.analysis ⟨c, .backward, some exit⟩ exit.label fuel
  liveInBlocks lv c r c.graph.labelsSorted

/-! ## Interference and registers -/

/-- `HashMap<u32, HashSet<u32>>`. -/
abbrev IntGraph := List (Nat × List Nat)

/-- `intgraph.entry(k).or_default()`. -/
def ensureNode (g : IntGraph) (k : Nat) : IntGraph := if (g.lookup k).isSome then g else g ++ [(k, [])]

/-- `intgraph.entry(a).or_default().insert(b)`. -/
def addEdge (g : IntGraph) (a b : Nat) : IntGraph :=
  (ensureNode g a).map (fun e => if e.1 == a then (e.1, setInsert e.2 b) else e)

/-- The loop over the pairs of one live set: interference.rs 12–22. -/
def interferePairs : List Nat → IntGraph → IntGraph
  | [], g => g
  | a :: rest, g =>
    interferePairs rest (rest.foldl (fun g b => addEdge (addEdge g a b) b a) (ensureNode g a))

/-- `calculate_interference_graph`: interference.rs 6–25. -/
def interferenceGraph (liveness : List (Loc × List Nat)) : IntGraph :=
  liveness.foldl (fun g e => interferePairs e.2 g) []

/-- The smaller of two nodes by `(degree, id)`: registers.rs 14. -/
def smaller (a b : Nat × List Nat) : Nat × List Nat :=
  if b.2.length < a.2.length ∨ (b.2.length = a.2.length ∧ b.1 < a.1) then b else a

/-- `rem.iter().min_by(..)`: registers.rs 12–15. -/
def minNode : IntGraph → Option (Nat × List Nat)
  | [] => none
  | e :: es => some (es.foldl smaller e)

/-- `rem.get_mut(&c).unwrap().remove(&t)`: registers.rs 20. -/
def dropNeighbour (g : IntGraph) (c t : Nat) : Option IntGraph :=
  if (g.lookup c).isSome then
    some (g.map (fun e => if e.1 == c then (e.1, setRemove e.2 t) else e))
  else none

/-- The simplification loop: registers.rs 12–22.  Returns the nodes in the order they were pushed.  One
round removes one node, so as many rounds as there are nodes are enough. -/
def simplify : Nat → IntGraph → Option (List Nat)
  | _, [] => some []
  | 0, _ :: _ => none
  | fuel + 1, e :: es =>
    match minNode (e :: es) with
    | none => none
    | some (t, children) =>
      match children.foldlM (fun g c => dropNeighbour g c t) ((e :: es).filter (fun x => x.1 != t)) with
      | none => none
      | some rem =>
        match simplify fuel rem with
        | none => none
        | some st => some (t :: st)

/-- `(0..max_colour).find(|c| !used.contains(c))`: registers.rs 32. -/
def pickColour (max : Nat) (used : List Nat) : Option Nat :=
  (List.range max).find? (fun c => !(used.contains c))

/-- The colouring loop: registers.rs 25–34, on the reversed stack.  `allocated` is the map so far. -/
def colour (g : IntGraph) : List Nat → List (Nat × Nat) → Option (List (Nat × Nat))
  | [], allocated => some allocated
  | t :: ts, allocated =>
    match g.lookup t with
    | none => none
    | some ns =>
      match pickColour g.length (ns.filterMap (fun n => allocated.lookup n)) with
      | none => none
      | some pick =>
        if (allocated.lookup t).isSome then none else colour g ts ((t, pick) :: allocated)

/-- `allocate_registers`: registers.rs 9–36. -/
def allocateRegisters (g : IntGraph) : Option (List (Nat × Nat)) := do
  let stack ← simplify g.length g
  colour g stack.reverse []

/-- `sort_unstable_by_key` on distinct keys. -/
def insertByKey (x : Nat × Nat) : List (Nat × Nat) → List (Nat × Nat)
  | [] => [x]
  | y :: ys => if x.1 ≤ y.1 then x :: y :: ys else y :: insertByKey x ys

/-- See `insertByKey`. -/
def sortByKey : List (Nat × Nat) → List (Nat × Nat)
  | [] => []
  | x :: xs => insertByKey x (sortByKey xs)

/-- The construction of `reg_remap`: regalloc.rs 66–74.  The map is the list of registers in the order of
their first occurrence; a register is mapped to its position. -/
def regOrder (ordered : List (Nat × Nat)) : List Nat := ordered.foldl (fun m e => setInsert m e.2) []

/-- `normalise_registers`: regalloc.rs 56–82. -/
def normaliseRegisters (alloc : List (Nat × Nat)) (inlined : List Nat) : List (Nat × Nat) × Nat :=
  let ordered := sortByKey (alloc.filter (fun e => !(inlined.contains e.1)))
  let remap := regOrder ordered
  (ordered.map (fun e => (e.1, remap.idxOf e.2)), remap.length)

/-! ## Single-use definitions -/

/-- All uses of variables in a block: single_use_insts.rs 13–18. -/
def usesInBlock (label : Nat) : Nat → List Inst → List (Nat × Loc)
  | _, [] => []
  | k, i :: is => i.argVars.map (fun v => (v, (label, k))) ++ usesInBlock label (k + 1) is

/-- All definitions of variables in a block: single_use_insts.rs 19–21. -/
def defsInBlock (label : Nat) : Nat → List Inst → List (Nat × Loc)
  | _, [] => []
  | k, i :: is => i.tgts.map (fun v => (v, (label, k))) ++ defsInBlock label (k + 1) is

/-- `use_locs`: single_use_insts.rs 10, 13–18. -/
def allUses (c : Il.Cfg) : List (Nat × Loc) := c.bblocks.flatMap (fun e => usesInBlock e.1 0 e.2)

/-- `def_locs`: single_use_insts.rs 11, 19–21. -/
def allDefs (c : Il.Cfg) : List (Nat × Loc) := c.bblocks.flatMap (fun e => defsInBlock e.1 0 e.2)

/-- The instruction at a place. -/
def instAt (c : Il.Cfg) (l : Loc) : Option Inst := do
  let b ← Cfg.block c l.1
  b[l.2]?

/-- The loop over the variables: single_use_insts.rs 28–46, for the variables in the order `vars`. -/
def inlineVars (c : Il.Cfg) : List Nat → Option (Inlines × List Nat)
  | [] => some ([], [])
  | v :: vs => do
    let rest ← inlineVars c vs
    match (allUses c).filter (fun e => e.1 == v) with
    | [(_, dest)] => do
      let src ← (allDefs c).lookup v
      if src.1 ≠ dest.1 then some rest
      else do
        let di ← instAt c dest
        if src.2 > dest.2 ∧ di.t = .phi then some rest
        else if src.2 < dest.2 then
          if (rest.1.lookup src).isSome then none else some ((src, dest) :: rest.1, v :: rest.2)
        else none
    | _ => some rest

/-- `analyse_single_use_defs`: single_use_insts.rs 9–49. -/
def analyseSingleUseDefs (c : Il.Cfg) : Option (Inlines × List Nat) :=
  if ((allDefs c).map (·.1)).Nodup then inlineVars c (dedup ((allUses c).map (·.1))) else none

/-- `collect_temps`: regalloc.rs 17–40. -/
def collectTemps (c : Il.Cfg) (inlined : List Nat) : List Nat :=
  sortLabels (dedup (c.bblocks.flatMap (fun e => e.2.flatMap (fun i =>
    (Inst.vars i).filter (fun v => !(inlined.contains v))))))

/-- `RegAlloc`: regalloc.rs 9–15. -/
structure RegAlloc where
  tempToReg : List (Nat × Nat)
  regCount : Nat
  inlines : Inlines
  inlinedTemps : List Nat
deriving DecidableEq, Repr

/-- `compute_regalloc`: regalloc.rs 84–102.  `determinize_intgraph` (42–54) only rebuilds the same map. -/
def computeRegalloc (c : Il.Cfg) (sinks : List Nat) (fuel : Nat) : Option RegAlloc := do
  let (inl, inlined) ← analyseSingleUseDefs c
  let live ← calculateLiveIns c sinks inl inlined fuel
  let g := (collectTemps c inlined).foldl ensureNode (interferenceGraph live)
  let alloc ← allocateRegisters g
  let r := normaliseRegisters alloc inlined
  some { tempToReg := r.1, regCount := r.2, inlines := inl, inlinedTemps := inlined }

end Verif.Flow
