import Verif.Opt.Spec
import Verif.Dom.Model
/-!
# The optimizer's rewriting passes

Sources: `optimize-js/src/opt/optpass_trivial_dce.rs`, `optpass_redundant_assigns.rs`, `optpass_dvn.rs`,
`optimize-js/src/ssa/ssa_deconstruct.rs`.

Simplifications.  `CfgBBlocks` (a hash map from labels to blocks) is an association list; where the program
iterates over it in hash order, the model iterates in list order.  A panic (`assert!`, indexing) is `none`.
`PassResult::changed` is not modelled.
-/

namespace Verif.Opt

open Verif.Il Verif.Graph Verif.Dom

/-- Apply a function to every block: the `for (_, bblock) in cfg.bblocks.all_mut()` loops. -/
def mapBlocks (c : Cfg) (f : List Inst → List Inst) : Cfg :=
  { c with bblocks := c.bblocks.map (fun e => (e.1, f e.2)) }

/-! ## Removing unused results -/

/-- The set `used`: optpass_trivial_dce.rs 9–19. -/
def usedVars (c : Cfg) : List Nat := c.bblocks.flatMap (fun e => e.2.flatMap Inst.argVars)

/-- `should_delete` and what is done about it, for one instruction: optpass_trivial_dce.rs 24–34. -/
def dceInst (used : List Nat) (i : Inst) : Option Inst :=
  if !i.tgts.isEmpty && i.tgts.all (fun v => !used.contains v) then
    if i.t = .call then some { i with tgts := [] } else none
  else some i

/-- The loop over the instructions of a block, last to first: optpass_trivial_dce.rs 22–35. -/
def dceBlock (used : List Nat) (is : List Inst) : List Inst := is.filterMap (dceInst used)

/-- `optpass_trivial_dce`: optpass_trivial_dce.rs 8–38. -/
def trivialDce (c : Cfg) : Cfg := mapBlocks c (dceBlock (usedVars c))

/-! ## Removing copies -/

/-- `as_var_assign` of one instruction: inst.rs 414–417 (it indexes `tgts[0]` and `args[0]`). -/
def asVarAssign (i : Inst) : Option (Nat × Arg) := do
  let t ← i.tgts[0]?
  let a ← i.args[0]?
  some (t, a)

/-- The map `tgt_to_arg`, with the assertion that no target is entered twice:
optpass_redundant_assigns.rs 14–24, over the instructions of all blocks. -/
def collectCopies : List Inst → List (Nat × Arg) → Option (List (Nat × Arg))
  | [], m => some m
  | i :: is, m =>
    if i.t ≠ .varAssign then collectCopies is m
    else do
      let (t, a) ← asVarAssign i
      if (m.lookup t).isSome then none else collectCopies is ((t, a) :: m)

/-- Replacing one argument: optpass_redundant_assigns.rs 33–39. -/
def substArg (m : List (Nat × Arg)) : Arg → Arg
  | .var t => (m.lookup t).getD (.var t)
  | a => a

/-- Replacing the arguments of an instruction: optpass_redundant_assigns.rs 31–41. -/
def substInst (m : List (Nat × Arg)) (i : Inst) : Inst := { i with args := i.args.map (substArg m) }

/-- Deleting the copies of a block (lines 25–28) and replacing the arguments in what is left. -/
def copyBlock (m : List (Nat × Arg)) (is : List Inst) : List Inst :=
  (is.filter (fun i => i.t != .varAssign)).map (substInst m)

/-- `optpass_redundant_assigns`: optpass_redundant_assigns.rs 12–44. -/
def redundantAssigns (c : Cfg) : Option Cfg := do
  let m ← collectCopies (c.bblocks.flatMap (·.2)) []
  some (mapBlocks c (copyBlock m))

/-! ## Value numbering -/

/-- The compile-time evaluator used by value numbering (`eval/consteval.rs`), and the order on numbers, as
parameters. -/
structure Evaluator where
  bin : BinOp → Const → Const → Option Const
  builtinVal : List Nat → Option Const
  call : List Nat → List Const → Option Const
  numGt : Nat → Nat → Bool

/-- `is_start_char`: optpass_dvn.rs 19–21. -/
def isStartChar (ch : Nat) : Bool :=
  (97 ≤ ch && ch ≤ 122) || (65 ≤ ch && ch ≤ 90) || ch == 95 || ch == 36

/-- `is_continue_char`: optpass_dvn.rs 23–25. -/
def isContinueChar (ch : Nat) : Bool := isStartChar ch || (48 ≤ ch && ch ≤ 57)

/-- The words of `is_reserved_word`: optpass_dvn.rs 27–77. -/
def reservedWords : List (List Nat) :=
  (["await", "break", "case", "catch", "class", "const", "continue", "debugger", "default", "delete", "do",
    "else", "enum", "export", "extends", "false", "finally", "for", "function", "if", "import", "in",
    "instanceof", "new", "null", "return", "super", "switch", "this", "throw", "true", "try", "typeof", "var",
    "void", "while", "with", "yield", "let", "static", "implements", "interface", "package", "private",
    "protected", "public"] : List String).map (fun s => s.toList.map Char.toNat)

/-- `is_valid_member_ident`: optpass_dvn.rs 18–90. -/
def isValidMemberIdent : List Nat → Bool
  | [] => false
  | first :: rest =>
    isStartChar first && rest.all isContinueChar && !(reservedWords.contains (first :: rest))

/-- `Val`: optpass_dvn.rs 93–96. -/
inductive Val where
  | bin (l : Arg) (op : BinOp) (r : Arg)
  | un (op : UnOp) (a : Arg)
deriving DecidableEq

/-- `State`: optpass_dvn.rs 99–105. -/
structure State where
  vals : List (Val × Arg) := []
  tgts : List (Nat × Arg) := []

/-- `State::upsert_val`: optpass_dvn.rs 109–117. -/
def State.upsertVal (s : State) (v : Val) (t : Nat) : State × Arg × Option Arg :=
  match s.vals.lookup v with
  | some a => (s, a, some a)
  | none => ({ s with vals := (v, .var t) :: s.vals }, .var t, none)

/-- `State::canon_arg`: optpass_dvn.rs 119–133. -/
def State.canonArg (K : Evaluator) (s : State) : Arg → Arg
  | .builtin p =>
    match K.builtinVal p with
    | some v => .const v
    | none => .builtin p
  | .const c => .const c
  | .fn id => .fn id
  | .var t => (s.tgts.lookup t).getD (.var t)

/-- `assert!(state.tgt_to_coc.insert(t, a).is_none())`: optpass_dvn.rs 260–263, 285, 295. -/
def State.number (s : State) (t : Nat) (a : Arg) : Option State :=
  if (s.tgts.lookup t).isSome then none else some { s with tgts := (t, a) :: s.tgts }

/-- `to_const` of all arguments if all are constants: optpass_dvn.rs 240–242. -/
def allConsts : List Arg → Option (List Const)
  | [] => some []
  | .const c :: as => (allConsts as).map (c :: ·)
  | _ :: _ => none

/-- Swapping the operands of a commutative operation: optpass_dvn.rs 215–222. -/
def orderOperands (K : Evaluator) (op : BinOp) (l r : Arg) : Arg × Arg :=
  match op, l, r with
  | .add, .const (.num x), .const (.num y) => if K.numGt x y then (r, l) else (l, r)
  | .mul, .const (.num x), .const (.num y) => if K.numGt x y then (r, l) else (l, r)
  | _, _, _ => (l, r)

/-- The `match` on the ordered operands: optpass_dvn.rs 223–231. -/
def foldOrdered (K : Evaluator) (op : BinOp) (l r : Arg) : Option Arg :=
  match op, l, r with
  | op, .const a, .const b => (K.bin op a b).map .const
  | .getProp, .builtin o, .const (.str q) =>
    if isValidMemberIdent q then some (.builtin (o ++ [46] ++ q)) else none
  | _, _, _ => none

/-- Stage 2 for `Bin`: optpass_dvn.rs 213–231. -/
def foldBin (K : Evaluator) (op : BinOp) (l r : Arg) : Option Arg :=
  foldOrdered K op (orderOperands K op l r).1 (orderOperands K op l r).2

/-- Stage 2: optpass_dvn.rs 211–249.  `none` is a panic of `as_bin` or `as_call`. -/
def consteval (K : Evaluator) (i : Inst) : Option (Option Arg) :=
  match i.t with
  | .bin => do
    let l ← i.args[0]?
    let r ← i.args[1]?
    let _ ← i.tgts[0]?
    some (foldBin K i.binOp l r)
  | .call => do
    let f ← i.args[0]?
    let _ ← i.args[1]?
    match i.tgts[0]?, f, i.spreads, allConsts (i.args.drop 2) with
    | some _, .builtin f, [], some cs => some ((K.call f cs).map .const)
    | _, _, _, _ => some none
  | _ => some none

/-- Giving a value its number and reusing the row that already holds it: optpass_dvn.rs 289–297, the part
the arms for binary and unary instructions share. -/
def numberVal (s : State) (v : Val) (t : Nat) (i : Inst) : Option (State × Inst) := do
  let (s, row, existing) := s.upsertVal v t
  let s ← s.number t row
  some (s, match existing with | some v => Inst.varAssign t v | none => i)

/-- Stage 3 when nothing was evaluated: optpass_dvn.rs 265–300. -/
def numberInst (s : State) (i : Inst) : Option (State × Inst) :=
  match i.t with
  | .bin => do
    let l ← i.args[0]?
    let r ← i.args[1]?
    let t ← i.tgts[0]?
    numberVal s (.bin l i.binOp r) t i
  | .un => do
    let a ← i.args[0]?
    let t ← i.tgts[0]?
    numberVal s (.un i.unOp a) t i
  | .varAssign => do
    let (t, a) ← asVarAssign i
    let s ← s.number t a
    some (s, i)
  | _ => some (s, i)

/-- Stages 2 and 3: optpass_dvn.rs 211–300. -/
def rewriteInst (K : Evaluator) (s : State) (i : Inst) : Option (State × Inst) :=
  match consteval K i with
  | none => none
  | some (some v) => do
    let t ← i.tgts[0]?
    let s' ← s.number t (s.canonArg K v)
    some (s', Inst.varAssign t (s.canonArg K v))
  | some none => numberInst s i

/-- One instruction, with stage 1 (canonical arguments): optpass_dvn.rs 199–305. -/
def dvnInst (K : Evaluator) (s : State) (i : Inst) : Option (State × Inst) :=
  rewriteInst K s { i with args := i.args.map (s.canonArg K) }

/-- The loop over the instructions of a block: optpass_dvn.rs 196–306. -/
def dvnBlock (K : Evaluator) : State → List Inst → Option (State × List Inst)
  | s, [] => some (s, [])
  | s, i :: is => do
    let (s, i) ← dvnInst K s i
    let (s, is) ← dvnBlock K s is
    some (s, i :: is)

/-- Insertion into a list of phi entries sorted by label. -/
def insertEntry (x : Nat × Arg) : List (Nat × Arg) → List (Nat × Arg)
  | [] => [x]
  | y :: ys => if x.1 ≤ y.1 then x :: y :: ys else y :: insertEntry x ys

/-- `entries.sort_by_key(|(label, _)| *label)`: optpass_dvn.rs 183 (a stable sort). -/
def sortEntries (es : List (Nat × Arg)) : List (Nat × Arg) := es.foldr insertEntry []

/-- One phi of `canonicalize_phi_args_for_child`: optpass_dvn.rs 166–190. -/
def canonPhi (K : Evaluator) (s : State) (pred : Nat) (i : Inst) : Inst :=
  let es := (i.labels.zip i.args).map (fun e => if e.1 = pred then (e.1, s.canonArg K e.2) else e)
  let es := sortEntries es
  { i with labels := es.map (·.1), args := es.map (·.2) }

/-- `canonicalize_phi_args_for_child`: optpass_dvn.rs 142–192. -/
def canonPhis (K : Evaluator) (s : State) (pred : Nat) : List Inst → List Inst
  | [] => []
  | i :: is => if i.t ≠ .phi then i :: is else canonPhi K s pred i :: canonPhis K s pred is

/-- Write a block back: `cfg.bblocks.get_mut(label)`. -/
def setBlock (c : Cfg) (l : Nat) (is : List Inst) : Cfg :=
  { c with bblocks := c.bblocks.map (fun e => if e.1 = l then (e.1, is) else e) }

/-- The loop over the children in the graph: optpass_dvn.rs 308–310; a missing block panics. -/
def canonChildren (K : Evaluator) (s : State) (pred : Nat) : List Nat → Cfg → Option Cfg
  | [], c => some c
  | n :: ns, c => do
    let is ← Cfg.block c n
    canonChildren K s pred ns (setBlock c n (canonPhis K s pred is))

/-- `inner`: optpass_dvn.rs 194–317.  The state is restored on return, so it is only passed down; the last line
is the loop over the immediately dominated blocks (312–314).  The fuel bounds the depth of the recursion. -/
def inner (K : Evaluator) (d : Dom) : Nat → State → Cfg → Nat → Option Cfg
  | 0, _, _, _ => none
  | fuel + 1, s, c, l => do
    let is ← Cfg.block c l
    let (s, is) ← dvnBlock K s is
    let c ← canonChildren K s l (c.graph.childrenSorted l) (setBlock c l is)
    (d.immediatelyDominatedBy l).foldlM (fun c n => inner K d fuel s c n) c

/-- `optpass_dvn`: optpass_dvn.rs 329–334. -/
def dvn (K : Evaluator) (d : Dom) (fuel : Nat) (c : Cfg) : Option Cfg := inner K d fuel {} c c.entry

/-! ## Leaving SSA -/

/-- `NewBblock`: ssa_deconstruct.rs 9–14. -/
structure NewBblock where
  label : Nat
  parent : Nat
  child : Nat
  insts : List Inst
deriving DecidableEq, Repr

/-- The body of the loop over the entries of a phi: ssa_deconstruct.rs 24–33.  The state is the counter and
the new blocks of this child; the `BTreeMap` is a list in order of insertion (its values are sorted by label
below, line 37). -/
def pushCopy (child tgt : Nat) (s : Nat × List NewBblock) (e : Nat × Arg) : Nat × List NewBblock :=
  if s.2.any (fun b => b.parent == e.1) then
    (s.1, s.2.map (fun b =>
      if b.parent = e.1 then { b with insts := b.insts ++ [Inst.varAssign tgt e.2] } else b))
  else (s.1 + 1, s.2 ++ [⟨s.1, e.1, child, [Inst.varAssign tgt e.2]⟩])

/-- The loop over the phis of a block: ssa_deconstruct.rs 21–34; a phi without a target panics. -/
def takePhis (child : Nat) : List Inst → Nat × List NewBblock → Option (List Inst × Nat × List NewBblock)
  | [], s => some ([], s)
  | i :: is, s =>
    if i.t = .phi then do
      let tgt ← i.tgts[0]?
      takePhis child is ((i.labels.zip i.args).foldl (pushCopy child tgt) s)
    else some (i :: is, s)

/-- The loop over all blocks: ssa_deconstruct.rs 18–36. -/
def takeAll : List Nat → Cfg → Nat × List NewBblock → Option (Cfg × Nat × List NewBblock)
  | [], c, s => some (c, s)
  | l :: ls, c, s => do
    let is ← Cfg.block c l
    let (is, n, new) ← takePhis l is (s.1, [])
    takeAll ls (setBlock c l is) (n, s.2 ++ new)

/-- Insertion for `sortNew`. -/
def insertNew (b : NewBblock) : List NewBblock → List NewBblock
  | [] => [b]
  | y :: ys => if b.label ≤ y.label then b :: y :: ys else y :: insertNew b ys

/-- `new_bblocks.sort_by_key(|b| b.label)`: ssa_deconstruct.rs 37 (a stable sort). -/
def sortNew (bs : List NewBblock) : List NewBblock := bs.foldr insertNew []

/-- Update of the branch that ends the parent: ssa_deconstruct.rs 42–50. -/
def retarget (child label : Nat) (is : List Inst) : List Inst :=
  match is.getLast? with
  | some i =>
    if i.t = .condGoto then
      is.dropLast ++ [{ i with labels := i.labels.map (fun l => if l = child then label else l) }]
    else is
  | none => is

/-- Insertion of one new block: ssa_deconstruct.rs 38–56; panics when an edge or a block is missing or the
new label is taken. -/
def splitEdge (c : Cfg) (b : NewBblock) : Option Cfg := do
  let g ← c.graph.disconnect b.parent b.child
  let is ← Cfg.block c b.parent
  let c := setBlock c b.parent (retarget b.child b.label is)
  let g := (g.connect b.parent b.label).connect b.label b.child
  if (Cfg.block c b.label).isSome then none
  else some { c with graph := g, bblocks := c.bblocks ++ [(b.label, b.insts)] }

/-- `deconstruct_ssa`: ssa_deconstruct.rs 8–58.  `n` is the next label of the counter. -/
def deconstruct (c : Cfg) (n : Nat) : Option (Cfg × Nat) := do
  let (c, n, new) ← takeAll (sortLabels (c.bblocks.map (·.1))) c (n, [])
  let c ← (sortNew new).foldlM splitEdge c
  some (c, n)

end Verif.Opt
