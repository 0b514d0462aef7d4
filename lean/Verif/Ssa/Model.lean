import Verif.Opt.Model
/-!
# Entering SSA form

Sources: `optimize-js/src/analysis/defs.rs`, `optimize-js/src/ssa/ssa_insert_phis.rs`, `ssa_rename.rs`,
`phi_simplify.rs`, and the order of the calls in `optimize-js/src/lib.rs` 476–486.

Simplifications as in `Verif.Opt.Model`: hash maps are association lists, the order of an iteration over a
hash map is that of the list, and a panic is `none`.  `validate_phis` runs in debug builds only and is left
out.
-/

namespace Verif.Ssa

open Verif.Il Verif.Graph Verif.Dom Verif.Opt

/-! ## Placing phis -/

/-- `calculate_defs`: analysis/defs.rs 7–17. -/
def calculateDefs (c : Cfg) : List (Nat × List Nat) :=
  c.bblocks.foldl (fun m e => e.2.foldl (fun m i => i.tgts.foldl (fun m v => insertInto m v e.1) m) m) []

/-- The state of the `while` loop: ssa_insert_phis.rs 18–24. -/
structure Place where
  inserted : List Nat
  seen : List Nat
  queue : List Nat
  cfg : Cfg

/-- The body of the `for label in labels` loop: ssa_insert_phis.rs 32–41.  Simplification: line 38, which
enters the block in `defs`, is left out; the only caller drops `defs` (lib.rs 492), and within this
function the entry of a variable is read before it is changed. -/
def placeAt (v : Nat) (s : Place) (label : Nat) : Option Place :=
  if s.inserted.contains label then some s
  else do
    let is ← Cfg.block s.cfg label
    let cfg := setBlock s.cfg label (Inst.phi v [] :: is)
    if s.seen.contains label then some { s with inserted := label :: s.inserted, cfg := cfg }
    else some ⟨label :: s.inserted, label :: s.seen, s.queue ++ [label], cfg⟩

/-- The `while` loop: ssa_insert_phis.rs 24–43.  The fuel bounds the number of iterations. -/
def placeLoop (df : List (Nat × List Nat)) (v : Nat) : Nat → Place → Option Cfg
  | fuel, s =>
    match s.queue with
    | [] => some s.cfg
    | d :: q =>
      match fuel with
      | 0 => none
      | fuel + 1 =>
        match df.lookup d with
        | none => placeLoop df v fuel { s with queue := q }
        | some blocks => do
          let s ← (sortLabels blocks).foldlM (placeAt v) { s with queue := q }
          placeLoop df v fuel s

/-- The body of the loop over the variables: ssa_insert_phis.rs 18–43. -/
def placeVar (df defs : List (Nat × List Nat)) (fuel : Nat) (c : Cfg) (v : Nat) : Option Cfg := do
  let ds ← defs.lookup v
  placeLoop df v fuel ⟨[], ds, sortLabels ds, c⟩

/-- `insert_phis_for_ssa_construction`: ssa_insert_phis.rs 9–45. -/
def insertPhis (d : Dom) (defs : List (Nat × List Nat)) (fuel : Nat) (c : Cfg) : Option Cfg := do
  let df ← d.dominanceFrontiers c.graph
  (sortLabels (defs.map (·.1))).foldlM (placeVar df defs fuel) c

/-! ## Renaming -/

/-- `rename_stacks`: ssa_rename.rs 13; the top of a stack is the head of the list. -/
abbrev Stacks := List (Nat × List Nat)

/-- The stack of a variable; a missing one is empty. -/
def stk (st : Stacks) (v : Nat) : List Nat := (st.lookup v).getD []

/-- Replace the stack of a variable. -/
def setStk (st : Stacks) (v : Nat) (s : List Nat) : Stacks := (v, s) :: st.filter (fun e => e.1 != v)

/-- Read the current name, with the variable itself as the first one: ssa_rename.rs 27–31, 54–58. -/
def readTop (st : Stacks) (v : Nat) : Stacks × Nat :=
  match stk st v with
  | [] => (setStk st v [v], v)
  | x :: _ => (st, x)

/-- `stack.push(new_var)`: ssa_rename.rs 38. -/
def push (st : Stacks) (v x : Nat) : Stacks := setStk st v (x :: stk st v)

/-- One argument: ssa_rename.rs 26–33. -/
def renameArg (st : Stacks) : Arg → Stacks × Arg
  | .var v => ((readTop st v).1, .var (readTop st v).2)
  | a => (st, a)

/-- The loop over the arguments: ssa_rename.rs 25–34. -/
def renameArgs : Stacks → List Arg → Stacks × List Arg
  | st, [] => (st, [])
  | st, a :: as =>
    let (st, a) := renameArg st a
    let (st, as) := renameArgs st as
    (st, a :: as)

/-- The loop over the targets: ssa_rename.rs 36–41.  `to_pop` is the list of the variables pushed, with
repetitions, instead of a map that counts them. -/
def renameTgts : Stacks → Nat → List Nat → Stacks × Nat × List Nat × List Nat
  | st, n, [] => (st, n, [], [])
  | st, n, v :: vs =>
    let (st, n', pops, vs) := renameTgts (push st v n) (n + 1) vs
    (st, n', v :: pops, n :: vs)

/-- One instruction: ssa_rename.rs 24–41. -/
def renameInst (st : Stacks) (n : Nat) (i : Inst) : Stacks × Nat × List Nat × Inst :=
  let (st, args) := if i.t ≠ .phi then renameArgs st i.args else (st, i.args)
  let (st, n, pops, tgts) := renameTgts st n i.tgts
  (st, n, pops, { i with args := args, tgts := tgts })

/-- The loop over the instructions of a block: ssa_rename.rs 23–42. -/
def renameInsts : Stacks → Nat → List Inst → Stacks × Nat × List Nat × List Inst
  | st, n, [] => (st, n, [], [])
  | st, n, i :: is =>
    let (st, n, pops, i) := renameInst st n i
    let (st, n, pops', is) := renameInsts st n is
    (st, n, pops ++ pops', i :: is)

/-- `insert_phi`: inst.rs 245–255. -/
def insertPhi (i : Inst) (label : Nat) (a : Arg) : Option Inst :=
  if i.t = .phi && i.labels.length == i.args.length && !i.labels.contains label then
    some { i with labels := i.labels ++ [label], args := i.args ++ [a] }
  else none

/-- The loop over the phis of one child: ssa_rename.rs 45–59.  `origs` are the original targets of the phis
of the block, in order; a missing one panics. -/
def fillPhis (label : Nat) : Stacks → List Nat → List Inst → Option (Stacks × List Inst)
  | st, _, [] => some (st, [])
  | st, origs, i :: is =>
    if i.t ≠ .phi then some (st, i :: is)
    else
      match origs with
      | [] => none
      | v :: origs => do
        let (st, x) := readTop st v
        let i ← insertPhi i label (.var x)
        let (st, is) ← fillPhis label st origs is
        some (st, i :: is)

/-- The loop over the children in the graph: ssa_rename.rs 44–60. -/
def fillChildren (origs : List (Nat × List Nat)) (label : Nat) :
    List Nat → Stacks × Cfg → Option (Stacks × Cfg)
  | [], s => some s
  | n :: ns, (st, c) => do
    let is ← Cfg.block c n
    let (st, is) ← fillPhis label st ((origs.lookup n).getD []) is
    fillChildren origs label ns (st, setBlock c n is)

/-- `s.pop().unwrap()` for every variable to be popped: ssa_rename.rs 66–71. -/
def popAll : Stacks → List Nat → Option Stacks
  | st, [] => some st
  | st, v :: vs =>
    match stk st v with
    | [] => none
    | _ :: s => popAll (setStk st v s) vs

/-- `inner`: ssa_rename.rs 12–72.  The fuel bounds the depth of the recursion. -/
def renameTree (origs : List (Nat × List Nat)) (d : Dom) :
    Nat → Stacks × Cfg × Nat → Nat → Option (Stacks × Cfg × Nat)
  | 0, _, _ => none
  | fuel + 1, (st, c, n), l => do
    let is ← Cfg.block c l
    let (st, n, pops, is) := renameInsts st n is
    let (st, c) ← fillChildren origs l (c.graph.childrenSorted l) (st, setBlock c l is)
    let (st, c, n) ← (d.immediatelyDominatedBy l).foldlM (renameTree origs d fuel) (st, c, n)
    let st ← popAll st pops
    some (st, c, n)

/-- The targets of the phis that start a block: ssa_rename.rs 101–108; a phi without a target panics. -/
def phiTgts : List Inst → Option (List Nat)
  | [] => some []
  | i :: is =>
    if i.t ≠ .phi then some []
    else do
      let t ← i.tgts[0]?
      let ts ← phiTgts is
      some (t :: ts)

/-- `phi_orig_tgts`: ssa_rename.rs 99–109, as a map from labels to lists. -/
def origTgts (c : Cfg) : Option (List (Nat × List Nat)) :=
  c.bblocks.mapM (fun e => do
    let ts ← phiTgts e.2
    some (e.1, ts))

/-! ## Removing phis with one source or none -/

/-- The loop over the phis of a block: ssa_rename.rs 124–152; the replacements, and the block without the
phis replaced. -/
def prunePhis : List Inst → Option (List (Nat × Arg) × List Inst)
  | [] => some ([], [])
  | i :: is =>
    if i.t ≠ .phi then some ([], i :: is)
    else if i.labels.length ≤ 1 then do
      let t ← i.tgts[0]?
      let (rs, is) ← prunePhis is
      some ((t, i.args.head?.getD (.const .undefined)) :: rs, is)
    else do
      let (rs, is) ← prunePhis is
      some (rs, i :: is)

/-- The loop over all blocks: ssa_rename.rs 122–153. -/
def pruneAll : List (Nat × List Inst) → Option (List (Nat × Arg) × List (Nat × List Inst))
  | [] => some ([], [])
  | (l, is) :: bs => do
    let (rs, is) ← prunePhis is
    let (rs', bs) ← pruneAll bs
    some (rs' ++ rs, (l, is) :: bs)

/-- `resolve_replacement`: ssa_rename.rs 74–95; `seen` is the set of variables met.  The fuel bounds the
number of iterations: one more than the number of replacements is enough. -/
def resolve (rs : List (Nat × Arg)) : Nat → List Nat → Arg → Arg
  | 0, _, a => a
  | fuel + 1, seen, .var v =>
    if seen.contains v then .var v
    else
      match rs.lookup v with
      | none => .var v
      | some a => resolve rs fuel (v :: seen) a
  | _ + 1, _, a => a

/-- Rewriting all arguments: ssa_rename.rs 154–162. -/
def resolveInst (rs : List (Nat × Arg)) (i : Inst) : Inst :=
  { i with args := i.args.map (resolve rs (rs.length + 1) []) }

/-! ## Simplifying phis -/

/-- `count_var_uses`: phi_simplify.rs 132–144; only whether a variable is used is asked. -/
def isUsed (c : Cfg) (v : Nat) : Bool := c.bblocks.any (fun e => e.2.any (fun i => i.args.contains (.var v)))

/-- Of several entries for one predecessor, which are neighbours, the last one is kept:
phi_simplify.rs 188–198. -/
def dedupEntries : List (Nat × Arg) → List (Nat × Arg)
  | [] => []
  | [e] => [e]
  | e :: f :: r => if e.1 = f.1 then dedupEntries (f :: r) else e :: dedupEntries (f :: r)

/-- The entries of a phi after filtering, sorting and removal of duplicates: phi_simplify.rs 181–198. -/
def simplifyEntries (parents : List Nat) (i : Inst) : List (Nat × Arg) :=
  dedupEntries (sortEntries ((i.labels.zip i.args).filter (fun e => parents.contains e.1)))

/-- What becomes of a phi: it stays (first list) or turns into a copy (second list); with `changed`:
phi_simplify.rs 175–221. -/
def simplifyPhi (used : Nat → Bool) (parents : List Nat) (i : Inst) :
    Option (List Inst × List Inst × Bool) :=
  match simplifyEntries parents i with
  | [] => do
    let t ← i.tgts[0]?
    some ([], if used t then [Inst.varAssign t (.const .undefined)] else [], true)
  | [e] => do
    let t ← i.tgts[0]?
    some ([], [Inst.varAssign t e.2], true)
  | es =>
    some ([{ i with labels := es.map (·.1), args := es.map (·.2) }], [],
      es.map (·.1) != i.labels || es.map (·.2) != i.args)

/-- All phis of a block. -/
def simplifyAll (used : Nat → Bool) (parents : List Nat) :
    List Inst → Option (List Inst × List Inst × Bool)
  | [] => some ([], [], false)
  | i :: is => do
    let (p, q, b) ← simplifyPhi used parents i
    let (ps, qs, bs) ← simplifyAll used parents is
    some (p ++ ps, q ++ qs, b || bs)

/-- One block: phi_simplify.rs 151–226.  The phis are the leading ones (151–153) and those found behind other
instructions (154–163). -/
def simplifyBlock (used : Nat → Bool) (parents : List Nat) (is : List Inst) : Option (List Inst × Bool) := do
  let phis := is.filter (fun i => i.t == .phi)
  let rest := is.filter (fun i => i.t != .phi)
  let misplaced := (is.dropWhile (fun i => i.t == .phi)).any (fun i => i.t == .phi)
  let (ps, qs, b) ← simplifyAll used parents phis
  some (ps ++ qs ++ rest, misplaced || b)

/-- The loop over the blocks: phi_simplify.rs 150–227. -/
def simplifyBlocks (used : Nat → Bool) (g : Graph) :
    List (Nat × List Inst) → Option (List (Nat × List Inst) × Bool)
  | [] => some ([], false)
  | (l, is) :: bs => do
    let (is, b) ← simplifyBlock used (g.parents l) is
    let (bs, b') ← simplifyBlocks used g bs
    some ((l, is) :: bs, b || b')

/-- `simplify_phis`: phi_simplify.rs 146–237, with its result `changed`. -/
def simplifyPhis (c : Cfg) : Option (Cfg × Bool) := do
  let (bs, b) ← simplifyBlocks (isUsed c) c.graph c.bblocks
  some ({ c with bblocks := bs }, b)

/-! ## The whole construction -/

/-- `rename_targets_for_ssa_construction`: ssa_rename.rs 97–168.  `n` is the next variable of the counter. -/
def renameTargets (d : Dom) (fuel : Nat) (c : Cfg) (n : Nat) : Option (Cfg × Nat) := do
  let origs ← origTgts c
  let (_, c, n) ← renameTree origs d fuel ([], c, n) c.entry
  let (rs, bs) ← pruneAll c.bblocks
  let bs := if rs.isEmpty then bs else bs.map (fun e => (e.1, e.2.map (resolveInst rs)))
  let (c, _) ← simplifyPhis { c with bblocks := bs }
  some (c, n)

/-- Entering SSA form: lib.rs 476, 483–486. -/
def construct (fuel : Nat) (c : Cfg) (n : Nat) : Option (Cfg × Nat) := do
  let d ← calculateDom c.graph fuel c.entry
  let c ← insertPhis d (calculateDefs c) fuel c
  renameTargets d fuel c n

end Verif.Ssa
