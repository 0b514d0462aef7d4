import Verif.Names.Model
/-!
# Renaming variables

Models `minify-js/src/rename/mod.rs`: `SymbolCollector::record_unknown`, `record_symbol_usage`,
`maybe_mark_export`, `collect_usages`, `assign_names`, `assign_scope` and the name an identifier gets from
`apply_renames`, on the scope tables of `semantic-js/src/js/mod.rs`.

Scope and symbol ids are `Nat`. A `NameId` is represented by the string it interns. Hash sets and maps
whose iteration order does not matter are lists; the maps of renames are association lists where the first
entry counts. Loops along `parent` and the recursion over `children` take the height of the tree as their
number of turns. `sem.scope` and `sem.symbol` are total (the code panics on an id that the binder did not
make).
-/

namespace Verif.Rename

open Verif.Names

abbrev Sym := Nat

/-- `semantic-js/src/js/mod.rs` 187–206: `ScopeData`. `symbols` is the `BTreeMap` in its iteration order;
of `kind` only whether it is `Module` is kept. -/
structure Scope where
  parent : Option Nat := none
  children : List Nat := []
  symbols : List (Name × Sym) := []
  isModule : Bool := false
  isDynamic : Bool := false
  hasDirectEval : Bool := false

/-- `semantic-js/src/js/mod.rs` 267–287: `JsSemantics`. `annexB` is `annex_b_function_decls` in key order,
from block bindings to `var` bindings. -/
structure Sem where
  top : Nat
  scope : Nat → Scope
  symName : Sym → Name
  declScope : Sym → Nat
  annexB : List (Sym × Sym) := []

/-- An identifier in the program: the scope and resolved (or declared) symbol attached to its node, its
text, and whether it stands in an exported declaration. -/
structure Ref where
  scope : Nat
  name : Name
  sym : Option Sym
  markExport : Bool := false

/-- `rename/mod.rs` 24–28: `ScopeUsages`. -/
structure Usages where
  foreign : List Sym := []
  unknown : List Name := []

/-- The scopes a loop `while let Some(scope_id) = current { …; current = sem.scope(scope_id).parent }`
runs through. -/
def chain (sem : Sem) : Nat → Nat → List Nat
  | 0, _ => []
  | fuel + 1, s =>
    s :: match (sem.scope s).parent with
      | none => []
      | some p => chain sem fuel p

/-- `rename/mod.rs` 106–117: `record_unknown`. -/
def recordUnknown (sem : Sem) (h : Nat) (u : Nat → Usages) (scope : Nat) (name : Name) : Nat → Usages :=
  fun s => if s ∈ chain sem h scope then { u s with unknown := name :: (u s).unknown } else u s

/-- `rename/mod.rs` 119–134: `record_symbol_usage`; the loop stops at the declaring scope. -/
def recordSymbolUsage (sem : Sem) (h : Nat) (u : Nat → Usages) (scope : Nat) (x : Sym) : Nat → Usages :=
  fun s =>
    if s ∈ (chain sem h scope).takeWhile (fun t => t != sem.declScope x) then
      { u s with foreign := x :: (u s).foreign }
    else u s

/-- `rename/mod.rs` 195–233: the visitor's treatment of one identifier. -/
def recordRef (sem : Sem) (h : Nat) (u : Nat → Usages) (r : Ref) : Nat → Usages :=
  match r.sym with
  | some x => recordSymbolUsage sem h u r.scope x
  | none => recordUnknown sem h u r.scope r.name

/-- `rename/mod.rs` 136–140: `maybe_mark_export`. -/
def exportedBy (sem : Sem) (r : Ref) : Option Sym :=
  if r.markExport && (sem.scope r.scope).isModule then r.sym else none

/-- The scopes of the tree in the order of `assign_scope`'s recursion. -/
def preorder (sem : Sem) : Nat → Nat → List Nat
  | 0, _ => []
  | fuel + 1, s => s :: (sem.scope s).children.flatMap (preorder sem fuel)

/-- `rename/mod.rs` 30–34: `ScopeHazards`. -/
structure Hazards where
  hasDirectEval : Bool
  hasWith : Bool

/-- `rename/mod.rs` 47–54: `UsageData`; a missing entry of `scope_symbol_order` or `scope_usages` is an
empty one. -/
structure UsageData where
  exported : List Sym
  symbolNames : Sym → Option Name
  order : Nat → List Sym
  usages : Nat → Usages
  hazards : List (Nat × Hazards)

/-- `rename/mod.rs` 263–314: `collect_usages`. The second loop keeps its scopes on a stack; it visits every
scope once and the maps it fills do not depend on the order, here that of `preorder`. -/
def collectUsages (sem : Sem) (h : Nat) (refs : List Ref) : UsageData :=
  let visited := preorder sem h sem.top
  { exported := refs.filterMap (exportedBy sem)
    symbolNames := fun x =>
      if x ∈ visited.flatMap (fun s => (sem.scope s).symbols.map Prod.snd) then some (sem.symName x) else none
    order := fun s => if s ∈ visited then (sem.scope s).symbols.map Prod.snd else []
    usages := refs.foldl (recordRef sem h) (fun _ => {})
    hazards := visited.filterMap (fun s =>
      let d := sem.scope s
      let z : Hazards := ⟨d.hasDirectEval, d.isDynamic && !d.hasDirectEval⟩
      if z.hasDirectEval || z.hasWith then some (s, z) else none) }

abbrev Renames := List (Sym × Name)

/-- `rename/mod.rs` 368–383: `disabled_scopes`. -/
def disabledScopes (sem : Sem) (h : Nat) (ud : UsageData) : List Nat :=
  ud.hazards.flatMap (fun e =>
    (if e.2.hasWith || e.2.hasDirectEval then [e.1] else []) ++
    (if e.2.hasDirectEval then
      match (sem.scope e.1).parent with
      | none => []
      | some p => chain sem h p
    else []))

/-- `rename/mod.rs` 386–398: `pinned_symbols`. -/
def pinnedSymbols (ud : UsageData) : List Sym :=
  ud.hazards.flatMap (fun e => if e.2.hasWith then (ud.usages e.1).foreign else [])

/-- What `assign_scope` is given besides the scope and the renames so far. -/
structure Ctx where
  sem : Sem
  ud : UsageData
  disabled : List Nat
  pinned : List Sym

/-- `rename/mod.rs` 400–411: `annex_b_var_to_blocks`; the map it is built from iterates by key, so the list
is sorted. -/
def Ctx.blocksOf (c : Ctx) (v : Sym) : List Sym :=
  (c.sem.annexB.filter (fun e => e.2 == v)).map Prod.fst

/-- `usage.exported.contains(sym) || pinned_symbols.contains(sym)`. -/
def Ctx.fixed (c : Ctx) (x : Sym) : Bool := c.ud.exported.contains x || c.pinned.contains x

/-- `rename/mod.rs` 450–457 and 527–534: the names of the free variables of a scope as they stand. -/
def Ctx.foreignNames (c : Ctx) (ren : Renames) (s : Nat) : List Name :=
  (c.ud.usages s).foreign.filterMap (fun x => (ren.lookup x).or (c.ud.symbolNames x))

/-- `rename/mod.rs` 449–462: `disallowed`. -/
def Ctx.disallowed (c : Ctx) (ren : Renames) (s : Nat) : List Name :=
  reservedNames ++ c.foreignNames ren s ++ (c.ud.usages s).unknown

/-- `rename/mod.rs` 466–475: the names in use before any is generated. -/
def Ctx.fixedNames (c : Ctx) (s : Nat) : List Name :=
  (c.ud.order s).filterMap (fun x => if c.fixed x then c.ud.symbolNames x else none)

/-- `rename/mod.rs` 477–498: the names of the block functions of a scope. -/
def Ctx.linkStep (c : Ctx) (st : List Name × Renames) (x : Sym) : List Name × Renames :=
  match c.sem.annexB.lookup x with
  | none => st
  | some rep =>
    let used := match ((st.2.lookup rep).or (c.ud.symbolNames rep)).or (c.ud.symbolNames x) with
      | some n => n :: st.1
      | none => st.1
    match st.2.lookup rep with
    | some n => (used, (x, n) :: st.2)
    | none => (used, st.2)

/-- `rename/mod.rs` 523–550: `group_disallowed`. -/
def Ctx.groupDisallowed (c : Ctx) (ren : Renames) (blocks : List Sym) : List Name :=
  blocks.flatMap (fun b =>
    let s := c.sem.declScope b
    reservedNames ++ c.foreignNames ren s ++ (c.ud.usages s).unknown ++ c.fixedNames s)

/-- `rename/mod.rs` 339–347: `next_name`, with one turn more than there are unavailable names. -/
def freshName (unavailable : List Name) (counter : Nat) : Option (Name × Nat) :=
  nextName (fun n => !unavailable.contains n) (unavailable.length + 1) counter

/-- The generator's counter, the names in use in the scope and the renames so far. -/
structure LoopState where
  counter : Nat
  used : List Name
  ren : Renames

/-- `rename/mod.rs` 500–572: one turn of the loop over the scope's symbols. -/
def Ctx.symStep (c : Ctx) (disallowed : List Name) (st : LoopState) (x : Sym) : Option LoopState :=
  if (c.sem.annexB.lookup x).isSome then some st
  else match c.ud.symbolNames x with
    | none => some st
    | some name =>
      let blocks := c.blocksOf x
      if blocks.isEmpty then
        if c.fixed x then some st
        else
          (freshName (disallowed ++ st.used) st.counter).map (fun p =>
            ⟨p.2, p.1 :: st.used, (x, p.1) :: st.ren⟩)
      else if c.fixed x || blocks.any (fun b => c.disabled.contains (c.sem.declScope b)) then
        some { st with used := name :: st.used }
      else
        (freshName (disallowed ++ st.used ++ c.groupDisallowed st.ren blocks) st.counter).map (fun p =>
          ⟨p.2, p.1 :: st.used, blocks.map (fun b => (b, p.1)) ++ (x, p.1) :: st.ren⟩)

/-- `rename/mod.rs` 424–572: `assign_scope` without the recursion. -/
def Ctx.assignOne (c : Ctx) (ren : Renames) (s : Nat) : Option Renames :=
  if c.disabled.contains s then some ren
  else
    let disallowed := c.disallowed ren s
    let st := (c.ud.order s).foldl c.linkStep (c.fixedNames s, ren)
    ((c.ud.order s).foldlM (c.symStep disallowed) ⟨0, st.1, st.2⟩).map (·.ren)

/-- `rename/mod.rs` 413–587: `assign_scope`. -/
def Ctx.assignScope (c : Ctx) : Nat → Renames → Nat → Option Renames
  | 0, ren, _ => some ren
  | fuel + 1, ren, s => do
    let ren ← c.assignOne ren s
    (c.sem.scope s).children.foldlM (c.assignScope fuel) ren

/-- The context `assign_names` builds. -/
def mkCtx (sem : Sem) (h : Nat) (refs : List Ref) : Ctx :=
  let ud := collectUsages sem h refs
  ⟨sem, ud, disabledScopes sem h ud, pinnedSymbols ud⟩

/-- `rename/mod.rs` 364–601: `assign_names` on the result of `collect_usages`. -/
def assignNames (sem : Sem) (h : Nat) (refs : List Ref) : Option Renames :=
  (mkCtx sem h refs).assignScope h [] sem.top

/-- `rename/mod.rs` 728–744 (`maybe_apply`): the text of an identifier of a symbol afterwards. -/
def newName (sem : Sem) (ren : Renames) (x : Sym) : Name := (ren.lookup x).getD (sem.symName x)

end Verif.Rename
