/-!
# Model of the JavaScript binder of `semantic-js`

`/repo/semantic-js/src/js/declare.rs` walks the tree once, makes scopes and
fills one symbol table per scope.  `/repo/semantic-js/src/js/resolve.rs` walks
it again and looks every identifier use up in the finished tables.  The two
walks are modelled here as two recursive functions.

Simplifications, for the whole file.

* Scope and symbol numbers are 64-bit hashes of the parent scope, the kind and
  the source span (declare.rs:103-124).  The model keeps the hashed data itself:
  a scope is the list of the (kind, span) pairs from it to the top scope, and a
  symbol is a scope and a name.  Hash collisions are outside the model.
* A span is one number.
* The enter and exit functions of the visitor push and pop stacks in pairs.  The
  model passes the top of each stack down as an argument.
* Symbol flags, dead-zone marks, diagnostics, `with` and direct `eval` are left
  out.
-/

namespace Verif.Bind

/-- `ScopeKind`, /repo/semantic-js/src/js/mod.rs:159-174. -/
inductive SK
  | global | module_ | cls | static | func | arrow | block | fexpr
deriving DecidableEq, Repr

/-- `TopLevelMode`, /repo/semantic-js/src/js/mod.rs:97-107. -/
inductive Mode
  | global | script | module_
deriving DecidableEq, Repr

abbrev Name := String

/-- `ScopeId`, declare.rs:107-120: the (kind, span) pairs from the scope to the
top scope. -/
abbrev ScopeId := List (SK × Nat)

/-- How the declarations of a `VarDecl` behave, declare.rs:2004-2016: `var`, or
one of `let`, `const`, `using` and `await using`. -/
inductive VarMode
  | var | lexical
deriving DecidableEq, Repr

/-- Nodes that make no scope.  `method` is a method, getter or setter of a class
or of an object literal (declare.rs:1217-1223); `dflt` is a default value or a
computed key inside a pattern, which the code does not tell apart; `other` is
every node the binder has no rule for. -/
inductive Group
  | other | patDecl | dflt | varDecl (m : VarMode) | import_ | method
deriving DecidableEq, Repr

/-- Nodes that make a scope: a block, a `for` body, the branches of a `switch`
or a `for` with a lexical head (`block`); a catch clause, with whether its
parameter is a plain identifier; a class; a function expression's name; a static
block. -/
inductive ScopeNode
  | block | catch_ (simple : Bool) | cls | fexpr | static
deriving DecidableEq, Repr

/-- The syntax tree, reduced to what the binder looks at.  A list of children is
built with `nil` and `seq`.

* `use x` is an identifier expression, `pat x` an identifier in a pattern.
* `fname x plain` is the name of a function declaration; `plain` is false for
  async functions and generators.
* `cname x` is the name of a class declaration (beside the class), of a class
  expression (inside its scope) or of a function expression (inside its scope).
* `func sp arrow strict ps b` is a function with parameters `ps` and body `b`;
  `strict` says whether the body has a `"use strict"` directive.
* `forOf sp lhs rhs b` is a `for`-`in` or `for`-`of` whose head declares with
  `let`, `const` or `using`.  The other ones make no scope of their own. -/
inductive Tree
  | nil
  | seq (a b : Tree)
  | use (x : Name)
  | pat (x : Name)
  | fname (x : Name) (plain : Bool)
  | cname (x : Name)
  | group (g : Group) (t : Tree)
  | scope (k : ScopeNode) (sp : Nat) (t : Tree)
  | func (sp : Nat) (arrow strict : Bool) (ps b : Tree)
  | forOf (sp : Nat) (lhs rhs b : Tree)
deriving DecidableEq, Repr

/-- The kind of scope each node makes, declare.rs:1466-1475, 1530, 1553, 1569,
1859. -/
def ScopeNode.kind : ScopeNode → SK
  | .block => .block
  | .catch_ _ => .block
  | .cls => .cls
  | .fexpr => .fexpr
  | .static => .static

/-- `enter_func_node`, declare.rs:1889-1893. -/
def funcKind (arrow : Bool) : SK := if arrow then .arrow else .func

/-- `is_var_scope`, mod.rs:176-188. -/
def SK.isVar : SK → Bool
  | .module_ | .func | .arrow | .static => true
  | _ => false

/-- `scope_kind`, declare.rs:262-264. -/
def kindOf : ScopeId → SK
  | [] => .global
  | k :: _ => k.1

/-- `nearest_closure`, declare.rs:1069-1080. -/
def nearest (m : Mode) : ScopeId → Option ScopeId
  | [] => none
  | k :: r =>
    if k.1.isVar || (m == .script && k.1 == .global) then some (k :: r)
    else nearest m r

/-- `DeclTarget`, declare.rs:583-587. -/
inductive Target
  | ifNotGlobal | nearestClosure
deriving DecidableEq, Repr

/-- `DeclContext`, declare.rs:589-597, without the flags. -/
structure Ctx where
  target : Target
  catchParam : Bool
deriving DecidableEq, Repr

/-- What the declaring walk records: a symbol in a scope's table
(declare.rs:536-548), a catch parameter (declare.rs:434-437), or a block function
kept for the end (declare.rs:1834-1839). -/
inductive Entry
  | sym (s : ScopeId) (x : Name)
  | catchP (s : ScopeId) (x : Name)
  | annex (x : Name) (block : ScopeId) (closure : Option ScopeId)
deriving DecidableEq, Repr

/-- The scope a target names, declare.rs:1131-1164. -/
def place (m : Mode) (cur : ScopeId) (x : Name) : Target → List Entry
  | .ifNotGlobal =>
    if m == .global && kindOf cur == .global then [] else [.sym cur x]
  | .nearestClosure =>
    match nearest m cur with
    | none => []
    | some s => [.sym s x]

/-- `declare_with_target`, declare.rs:1082-1167. -/
def declareWith (m : Mode) (cur : ScopeId) (ctx : Ctx) (x : Name) : List Entry :=
  (if ctx.catchParam && kindOf cur == .block then [.catchP cur x] else [])
    ++ place m cur x ctx.target

/-- The name of a function declaration, `enter_func_decl_node`,
declare.rs:1763-1854. -/
def declareFunc (m : Mode) (cur : ScopeId) (strict : Bool) (x : Name) : List Entry :=
  if m == .module_ then
    declareWith m cur
      ⟨if kindOf cur == .block then .ifNotGlobal else .nearestClosure, false⟩ x
  else if kindOf cur == .block && strict then
    declareWith m cur ⟨.ifNotGlobal, false⟩ x
  else if kindOf cur == .block then
    [.sym cur x, .annex x cur (nearest m cur)]
  else declareWith m cur ⟨.nearestClosure, false⟩ x

/-- The declaration context a node without a scope sets up: `enter_var_decl_node`
(declare.rs:2004-2028) and `enter_import_stmt_node` (declare.rs:1924-1934). -/
def Group.ctx (ctx : Option Ctx) : Group → Option Ctx
  | .varDecl .var => some ⟨.nearestClosure, false⟩
  | .varDecl .lexical => some ⟨.ifNotGlobal, false⟩
  | .import_ => some ⟨.ifNotGlobal, false⟩
  | _ => ctx

/-- `in_pattern_decl` is set by a `PatDecl`, declare.rs:1940-1946, and by nothing
else. -/
def Group.inPat (p : Bool) : Group → Bool
  | .patDecl => true
  | _ => p

/-- Methods are walked in strict mode, declare.rs:1217-1223. -/
def Group.strict (c : Bool) : Group → Bool
  | .method => true
  | _ => c

/-- The context inside a scope: a catch clause sets one, declare.rs:1487-1501. -/
def ScopeNode.ctx (ctx : Option Ctx) : ScopeNode → Option Ctx
  | .catch_ _ => some ⟨.ifNotGlobal, true⟩
  | _ => ctx

/-- Classes are walked in strict mode, declare.rs:1516, 1543. -/
def ScopeNode.strict (c : Bool) : ScopeNode → Bool
  | .cls => true
  | _ => c

/-- The context of a function's parameters, declare.rs:1895. -/
def paramCtx : Ctx := ⟨.nearestClosure, false⟩

/-- The context of the head of a lexical `for`-`of`, declare.rs:1724-1745. -/
def lexCtx : Ctx := ⟨.ifNotGlobal, false⟩

/-- The declaring walk, `DeclareVisitor`, declare.rs:1177-2033.  `cur` is the
current scope, `c` the strictness, `ctx` the declaration context and `p` whether
a pattern is being declared. -/
def code (m : Mode) (cur : ScopeId) (c : Bool) (ctx : Option Ctx) (p : Bool) :
    Tree → List Entry
  | .nil => []
  | .seq a b => code m cur c ctx p a ++ code m cur c ctx p b
  | .use _ => []
  | .pat x =>
    if p then
      match ctx with
      | none => []
      | some d => declareWith m cur d x
    else []
  | .fname x _ => declareFunc m cur c x
  | .cname x => declareWith m cur lexCtx x
  | .group g t => code m cur (g.strict c) (g.ctx ctx) (g.inPat p) t
  | .scope k sp t => code m ((k.kind, sp) :: cur) (k.strict c) (k.ctx ctx) p t
  | .func sp arrow strict ps b =>
    code m ((funcKind arrow, sp) :: cur) (c || strict) (some paramCtx) p ps
      ++ code m ((funcKind arrow, sp) :: cur) (c || strict) (some paramCtx) p b
  | .forOf sp lhs rhs b =>
    code m ((.block, sp) :: cur) c (some lexCtx) p lhs
      ++ (code m cur c ctx p rhs ++ code m ((.block, sp) :: cur) c ctx p b)

/-- A symbol table: the symbols of every scope. -/
abbrev Table := List (ScopeId × Name)

/-- The symbols recorded by the walk. -/
def syms (es : List Entry) : Table :=
  es.filterMap fun e => match e with
    | .sym s x => some (s, x)
    | _ => none

/-- The catch parameters recorded by the walk. -/
def catches (es : List Entry) : Table :=
  es.filterMap fun e => match e with
    | .catchP s x => some (s, x)
    | _ => none

/-- The block functions recorded by the walk. -/
def annexes (es : List Entry) : List (Name × ScopeId × Option ScopeId) :=
  es.filterMap fun e => match e with
    | .annex x b c => some (x, b, c)
    | _ => none

/-- Whether a scope from this one up to the closure, the closure itself left
out, has the name other than as a catch parameter, declare.rs:724-752. -/
def suppressed (tab cat : Table) (x : Name) (closure : Option ScopeId) : ScopeId → Bool
  | [] => false
  | k :: r =>
    if closure = some (k :: r) then false
    else if (k :: r, x) ∈ tab ∧ (k :: r, x) ∉ cat then true
    else suppressed tab cat x closure r

/-- One turn of the loop of `process_annex_b_block_functions`,
declare.rs:716-823. -/
def annexStep (cat : Table) (tab : Table) (a : Name × ScopeId × Option ScopeId) : Table :=
  if suppressed tab cat a.1 a.2.2 a.2.1.tail then tab
  else
    match a.2.2 with
    | none => tab
    | some c => if (c, a.1) ∈ tab then tab else tab ++ [(c, a.1)]

/-- The finished symbol tables, declare.rs:707-710. -/
def tables (es : List Entry) : Table :=
  (annexes es).foldl (annexStep (catches es)) (syms es)

/-- `resolve_name_id_in_scope`, mod.rs:323-333. -/
def lookup (tab : Table) : ScopeId → Name → Option ScopeId
  | [], _ => none
  | k :: r, x => if (k :: r, x) ∈ tab then some (k :: r) else lookup tab r x

/-- The search of `resolve_name_for_use` inside a parameter list,
resolve.rs:327-353: in the function's own scope only parameters count. -/
def lookupParam (tab : Table) (fs : ScopeId) (ps : Table) : ScopeId → Name → Option ScopeId
  | [], _ => none
  | k :: r, x =>
    if (k :: r, x) ∈ tab then
      if k :: r = fs then
        if (fs, x) ∈ ps then some (k :: r) else lookupParam tab fs ps r x
      else some (k :: r)
    else lookupParam tab fs ps r x

/-- `resolve_name_for_use`, resolve.rs:318-354.  The first argument is the
function whose parameter list is being walked, with its parameters, if the top of
`in_param_list` is true. -/
def lookupUse (pc : Option (ScopeId × Table)) (tab : Table) (s : ScopeId) (x : Name) :
    Option ScopeId :=
  match pc with
  | none => lookup tab s x
  | some (fs, ps) => lookupParam tab fs ps s x

/-- The resolving walk, `ResolveVisitor`, resolve.rs:357-797: for every use in
source order its name and the scope whose symbol it gets.  A pattern that the
first walk took for a declaration is no use (resolve.rs:744-756).  `enter_func_node`
and `enter_func_body_node` (resolve.rs:692-735) give the parameter list. -/
def res (m : Mode) (tab : Table) (pc : Option (ScopeId × Table)) (cur : ScopeId) (c p : Bool) :
    Tree → List (Name × Option ScopeId)
  | .nil => []
  | .seq a b => res m tab pc cur c p a ++ res m tab pc cur c p b
  | .use x => [(x, lookupUse pc tab cur x)]
  | .pat x => if p then [] else [(x, lookupUse pc tab cur x)]
  | .fname _ _ => []
  | .cname _ => []
  | .group g t => res m tab pc cur (g.strict c) (g.inPat p) t
  | .scope k sp t => res m tab pc ((k.kind, sp) :: cur) (k.strict c) p t
  | .func sp arrow strict ps b =>
    res m tab
        (some ((funcKind arrow, sp) :: cur,
          syms (code m ((funcKind arrow, sp) :: cur) (c || strict) (some paramCtx) p ps)))
        ((funcKind arrow, sp) :: cur) (c || strict) p ps
      ++ res m tab none ((funcKind arrow, sp) :: cur) (c || strict) p b
  | .forOf sp lhs rhs b =>
    res m tab pc ((.block, sp) :: cur) c p lhs
      ++ (res m tab pc cur c p rhs ++ res m tab pc ((.block, sp) :: cur) c p b)

/-- The kind of the top scope, declare.rs:226-229. -/
def topKind : Mode → SK
  | .module_ => .module_
  | _ => .global

/-- `bind_js`, mod.rs:344-354, with `declare_with_diagnostics`,
declare.rs:189-200: the uses of a program and the scopes their symbols are in.
`strict` says whether the program has a `"use strict"` directive. -/
def bind (m : Mode) (strict : Bool) (sp : Nat) (t : Tree) : List (Name × Option ScopeId) :=
  res m (tables (code m [(topKind m, sp)] (m == .module_ || strict) none false t)) none
    [(topKind m, sp)] (m == .module_ || strict) false t

end Verif.Bind
