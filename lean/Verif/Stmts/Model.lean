/-!
# The minifier's passes over statements

`/repo/minify-js/src/opt/stmt_rewrite.rs`, `cleanup.rs`, `decl_combine.rs` and `cf_rewrite.rs`.
Each pass maps the statements of one body: a script, a module, a function or a class static block
(`/repo/minify-js/src/opt/traverse.rs:12-46`, `stmt_rewrite.rs:51-101`). Expressions are left whole,
apart from literals and the conditional and `&&` expressions the first pass builds, so a function
or class inside an expression or declaration is a number here; its own body is a body of its own.
-/

namespace Verif.Stmts

/-- A number literal, as far as `stmt_rewrite.rs:397` looks at it. -/
inductive Num
  | nan
  | zero
  | other (n : Nat)
deriving DecidableEq, Repr

/-- Literals. A `bigint` is the number its text stands for: the parser writes the text in canonical
decimal (`/repo/parse-js/src/parse/expr/lit.rs:45-94`). -/
inductive Lit
  | bool (b : Bool)
  | null
  | num (n : Num)
  | str (s : String)
  | bigint (n : Nat)
deriving DecidableEq, Repr

/-- Expressions. `paren` is the mark `ParenthesizedExpr` (`/repo/parse-js/src/ast/node.rs:30`). An
expression the passes do not look into is `other`. -/
inductive Expr
  | lit (paren : Bool) (l : Lit)
  | other (id : Nat)
  | and (l r : Expr)
  | cond (c t e : Expr)
deriving DecidableEq, Repr

/-- Patterns: a name, an array or object pattern with its targets in order (elements, values of
properties, rest), or a target which is not a name (`stmt_rewrite.rs:579-602`). -/
inductive Pat
  | id (x : String)
  | many (ps : List Pat)
  | target (n : Nat)

/-- `VarDeclMode`. -/
inductive Mode
  | var | lets | consts | usings | awaitUsings
deriving DecidableEq, Repr

/-- `VarDeclarator` without its types. -/
structure Declarator where
  pat : Pat
  init : Option Expr

/-- `ForTripleStmtInit`. -/
inductive ForInit
  | none
  | expr (e : Expr)
  | decl (mode : Mode) (ds : List Declarator)

/-- `ForInOfLhs`: a declaration or an assignment target. -/
inductive ForLhs
  | decl (mode : Mode) (pat : Pat)
  | assign (n : Nat)

/-- Statements (`/repo/parse-js/src/ast/stmt/mod.rs`). `braced` of a `for` body is what
`is_braced_for_body` (`cf_rewrite.rs:73-78`) reads off the positions. The tests and the bodies of
the branches of a `switch` are two lists of one length. `annexB` of a function says whether the
binder gave it a `var` binding too (`/repo/semantic-js/src/js/declare.rs:700-822`). `item` is an
import or export which declares nothing in the list it is in, `other` a statement no pass looks
into. -/
inductive Stmt
  | empty
  | expr (e : Expr)
  | other (id : Nat)
  | ret (e : Option Expr)
  | throw (e : Expr)
  | brk (l : Option String)
  | cont (l : Option String)
  | block (body : List Stmt)
  | ifThen (c : Expr) (t : Stmt)
  | ifElse (c : Expr) (t e : Stmt)
  | while (c : Expr) (body : Stmt)
  | doWhile (body : Stmt) (c : Expr)
  | for (init : ForInit) (test update : Option Expr) (braced : Bool) (body : List Stmt)
  | each (kind : Nat) (lhs : ForLhs) (e : Expr) (braced : Bool) (body : List Stmt)
  | switch (e : Expr) (tests : List (Option Expr)) (bodies : List (List Stmt))
  | tries (body : List Stmt) (hasCatch : Bool) (param : Option Pat) (handler : List Stmt)
      (hasFinally : Bool) (last : List Stmt)
  | withs (e : Expr) (body : Stmt)
  | label (l : String) (body : Stmt)
  | func (name : String) (id : Nat) (annexB : Bool)
  | cls (name : String) (id : Nat)
  | decl (exported : Bool) (mode : Mode) (ds : List Declarator)
  | item (id : Nat)

/-! ## `stmt_rewrite.rs` -/

/-- `const_truthiness` (`stmt_rewrite.rs:393-402`). -/
def constTruthiness : Expr → Option Bool
  | .lit _ (.bool b) => some b
  | .lit _ .null => some false
  | .lit _ (.num n) => some (n != .zero && n != .nan)
  | .lit _ (.str s) => some (!s.isEmpty)
  | .lit _ (.bigint n) => some (n != 0)
  | _ => none

/-- `has_use_strict_directive` (`stmt_rewrite.rs:411-433`). -/
def hasUseStrict : List Stmt → Bool
  | .expr (.lit false (.str s)) :: rest => if s = "use strict" then true else hasUseStrict rest
  | _ => false

mutual
/-- `contains_function_decl` (`stmt_rewrite.rs:435-498`). -/
def containsFunc : Stmt → Bool
  | .func _ _ _ => true
  | .block body => containsFuncs body
  | .ifThen _ t => containsFunc t
  | .ifElse _ t e => containsFunc t || containsFunc e
  | .for _ _ _ _ body => containsFuncs body
  | .each _ _ _ _ body => containsFuncs body
  | .while _ body => containsFunc body
  | .doWhile body _ => containsFunc body
  | .switch _ _ bodies => containsFuncss bodies
  | .tries body hasCatch _ handler hasFinally last =>
      containsFuncs body || (hasCatch && containsFuncs handler) ||
        (hasFinally && containsFuncs last)
  | .withs _ body => containsFunc body
  | .label _ body => containsFunc body
  | _ => false
/-- `iter().any(contains_function_decl)` over a list. -/
def containsFuncs : List Stmt → Bool
  | [] => false
  | st :: rest => containsFunc st || containsFuncs rest
/-- The same over the branches of a `switch`. -/
def containsFuncss : List (List Stmt) → Bool
  | [] => false
  | b :: rest => containsFuncs b || containsFuncss rest
end

/-- `push_unique` (`stmt_rewrite.rs:604-608`). -/
def pushUnique (out : List String) (x : String) : List String :=
  if x ∈ out then out else out ++ [x]

mutual
/-- `collect_pat_names` (`stmt_rewrite.rs:579-602`). -/
def collectPat : Pat → List String → List String
  | .id x, out => pushUnique out x
  | .many ps, out => collectPats ps out
  | .target _, out => out
/-- The loop over the targets of a pattern. -/
def collectPats : List Pat → List String → List String
  | [], out => out
  | p :: rest, out => collectPats rest (collectPat p out)
end

/-- The loop over the declarators of a `var` (`stmt_rewrite.rs:503-505`). -/
def collectDecls : List Declarator → List String → List String
  | [], out => out
  | d :: rest, out => collectDecls rest (collectPat d.pat out)

/-- The names of the head of a `for` (`stmt_rewrite.rs:508-514`). -/
def collectInit : ForInit → List String → List String
  | .decl .var ds, out => collectDecls ds out
  | _, out => out

/-- The names of the head of a `for … in` or `for … of` (`stmt_rewrite.rs:520-522`). -/
def collectLhs : ForLhs → List String → List String
  | .decl .var p, out => collectPat p out
  | _, out => out

mutual
/-- `collect_var_names` (`stmt_rewrite.rs:500-577`). -/
def collectVars : Stmt → List String → List String
  | .decl _ .var ds, out => collectDecls ds out
  | .for init _ _ _ body, out => collectVarsList body (collectInit init out)
  | .each _ lhs _ _ body, out => collectVarsList body (collectLhs lhs out)
  | .block body, out => collectVarsList body out
  | .ifThen _ t, out => collectVars t out
  | .ifElse _ t e, out => collectVars e (collectVars t out)
  | .while _ body, out => collectVars body out
  | .doWhile body _, out => collectVars body out
  | .switch _ _ bodies, out => collectVarsLists bodies out
  | .tries body hasCatch _ handler hasFinally last, out =>
      let out := collectVarsList body out
      let out := if hasCatch then collectVarsList handler out else out
      if hasFinally then collectVarsList last out else out
  | .withs _ body, out => collectVars body out
  | .label _ body, out => collectVars body out
  | _, out => out
/-- The loop over a list of statements. -/
def collectVarsList : List Stmt → List String → List String
  | [], out => out
  | st :: rest, out => collectVarsList rest (collectVars st out)
/-- The loop over the branches of a `switch`. -/
def collectVarsLists : List (List Stmt) → List String → List String
  | [], out => out
  | b :: rest, out => collectVarsLists rest (collectVarsList b out)
end

/-- `build_hoisted_var_decl` (`stmt_rewrite.rs:610-640`), and `build_var_stub` of
`cf_rewrite.rs:219-257`. -/
def hoistedDecl (names : List String) : Stmt :=
  .decl false .var (names.map fun x => { pat := .id x, init := none })

mutual
/-- `stmt_to_expr` (`stmt_rewrite.rs:360-383`); where it fails it gives the statement back. -/
def toExpr : Stmt → Option Expr
  | .expr e => some e
  | .block body => toExprBlock body
  | _ => none
/-- The case of a block, which must have one statement. -/
def toExprBlock : List Stmt → Option Expr
  | st :: rest => if rest.isEmpty then toExpr st else none
  | [] => none
end

/-- The choice at the end of `rewrite_single_stmt` (`stmt_rewrite.rs:309-329`). -/
def single : List Stmt → Stmt
  | [] => .empty
  | [st] => st
  | sts => .block sts

/-- An `if` with or without an `else`. -/
def mkIf (c : Expr) (t : Stmt) : Option Stmt → Stmt
  | none => .ifThen c t
  | some e => .ifElse c t e

/-- The branch of an `if` on a constant that is not taken (`stmt_rewrite.rs:142-146`). -/
def deadOf (b : Bool) (t : Stmt) (alt : Option Stmt) : Option Stmt := if b then alt else some t

/-- The names to keep of that branch (`stmt_rewrite.rs:154-157`). -/
def hoistedOf : Option Stmt → List String
  | some d => collectVars d []
  | none => []

/-- `live_exists` (`stmt_rewrite.rs:159-163`). -/
def liveExists (b : Bool) (alt : Option Stmt) : Bool := if b then true else alt.isSome

/-- The branch that is left (`stmt_rewrite.rs:176-180`). -/
def livePart (b : Bool) (t : Stmt) (alt : Option Stmt) : List Stmt := if b then [t] else alt.toList

/-- The case of `if` where the condition is known (`stmt_rewrite.rs:141-182`). -/
def pruneIf (strict inList : Bool) (b : Bool) (c : Expr) (t : Stmt) (alt : Option Stmt) :
    List Stmt :=
  if !strict && (deadOf b t alt).any containsFunc then [mkIf c t alt]
  else if !(hoistedOf (deadOf b t alt)).isEmpty && liveExists b alt && !inList then
    [mkIf c t alt]
  else
    (if (hoistedOf (deadOf b t alt)).isEmpty then []
      else [hoistedDecl (hoistedOf (deadOf b t alt))]) ++ livePart b t alt

/-- The statement `stmt_to_expr` leaves in its place when the other branch is not an expression
(`stmt_rewrite.rs:210-224`, `expr_to_stmt`, `stmt_rewrite.rs:385-391`). -/
def unwrap (st : Stmt) : Stmt :=
  match toExpr st with
  | some e => .expr e
  | none => st

/-- The tail of the case of `if` (`stmt_rewrite.rs:141-258`): the branches are rewritten. -/
def rewriteIf (strict inList : Bool) (c : Expr) (t : Stmt) (alt : Option Stmt) : List Stmt :=
  match constTruthiness c with
  | some b => pruneIf strict inList b c t alt
  | none =>
    match alt with
    | some e =>
      match toExpr t, toExpr e with
      | some a, some b => [.expr (.cond c a b)]
      | _, _ => [.ifElse c (unwrap t) (unwrap e)]
    | none =>
      match toExpr t with
      | some a => [.expr (.and c a)]
      | none => [.ifThen c t]

mutual
/-- `rewrite_stmt` (`stmt_rewrite.rs:122-307`). -/
def rewriteStmt (strict inList : Bool) : Stmt → List Stmt
  | .block body => [.block (rewriteList strict body)]
  | .ifThen c t => rewriteIf strict inList c (single (rewriteStmt strict false t)) none
  | .ifElse c t e =>
      rewriteIf strict inList c (single (rewriteStmt strict false t))
        (some (single (rewriteStmt strict false e)))
  | .while c body => [.while c (single (rewriteStmt strict false body))]
  | .doWhile body c => [.doWhile (single (rewriteStmt strict false body)) c]
  | .for init test update braced body => [.for init test update braced (rewriteList strict body)]
  | .each kind lhs e braced body => [.each kind lhs e braced (rewriteList strict body)]
  | .switch e tests bodies => [.switch e tests (rewriteLists strict bodies)]
  | .tries body hasCatch param handler hasFinally last =>
      [.tries (rewriteList strict body) hasCatch param (rewriteList strict handler)
        hasFinally (rewriteList strict last)]
  | .withs e body => [.withs e (single (rewriteStmt strict false body))]
  | .label l body => [.label l (single (rewriteStmt strict false body))]
  | st => [st]
/-- `rewrite_stmts` (`stmt_rewrite.rs:114-120`). -/
def rewriteList (strict : Bool) : List Stmt → List Stmt
  | [] => []
  | st :: rest => rewriteStmt strict true st ++ rewriteList strict rest
/-- The branches of a `switch`, each by `rewrite_switch_branch` (`stmt_rewrite.rs:337-345`). -/
def rewriteLists (strict : Bool) : List (List Stmt) → List (List Stmt)
  | [] => []
  | b :: rest => rewriteList strict b :: rewriteLists strict rest
end

/-! ## `cleanup.rs` -/

/-- The statements `clean_stmt_in_list` drops (`cleanup.rs:43-60`). -/
def vacuous : Stmt → Bool
  | .empty => true
  | .block body => body.isEmpty
  | .decl _ _ ds => ds.isEmpty
  | _ => false

/-- The choice at the end of `clean_single_stmt` (`cleanup.rs:62-75`). -/
def cleanTail : Stmt → Stmt
  | .block body => if body.isEmpty then .empty else .block body
  | .decl x m ds => if ds.isEmpty then .empty else .decl x m ds
  | st => st

mutual
/-- `clean_stmt` (`cleanup.rs:77-163`). The rewriting of `export {} from "m"` into `import "m"`
(`cleanup.rs:132-158`) is left out: both are an `item`. -/
def cleanStmt : Stmt → Stmt
  | .block body => .block (cleanList body)
  | .ifThen c t => .ifThen c (cleanTail (cleanStmt t))
  | .ifElse c t e => .ifElse c (cleanTail (cleanStmt t)) (cleanTail (cleanStmt e))
  | .while c body => .while c (cleanTail (cleanStmt body))
  | .doWhile body c => .doWhile (cleanTail (cleanStmt body)) c
  | .for init test update braced body => .for init test update braced (cleanList body)
  | .each kind lhs e braced body => .each kind lhs e braced (cleanList body)
  | .switch e tests bodies => .switch e tests (cleanLists bodies)
  | .tries body hasCatch param handler hasFinally last =>
      .tries (cleanList body) hasCatch param (cleanList handler) hasFinally (cleanList last)
  | .withs e body => .withs e (cleanTail (cleanStmt body))
  | .label l body => .label l (cleanTail (cleanStmt body))
  | st => st
/-- `clean_stmts` (`cleanup.rs:33-41`). -/
def cleanList : List Stmt → List Stmt
  | [] => []
  | st :: rest =>
      if vacuous (cleanStmt st) then cleanList rest else cleanStmt st :: cleanList rest
/-- The branches of a `switch` (`cleanup.rs:171-175`). -/
def cleanLists : List (List Stmt) → List (List Stmt)
  | [] => []
  | b :: rest => cleanList b :: cleanLists rest
end

/-! ## `decl_combine.rs` -/

/-- `merge_adjacent_var_decls` (`decl_combine.rs:48-78`): the merged declaration, if they merge. -/
def mergeDecls : Stmt → Stmt → Option Stmt
  | .decl x m ds, .decl x' m' ds' =>
      if x != x' then none
      else if m != m' then none
      else if m = .usings || m = .awaitUsings then none
      else if ds.isEmpty || ds'.isEmpty then none
      else some (.decl x m (ds ++ ds'))
  | _, _ => none

/-- One turn of the loop of `combine_stmts` (`decl_combine.rs:36-43`), after `combine_stmt`. -/
def pushMerged (out : List Stmt) (st : Stmt) : List Stmt :=
  match out.getLast? with
  | none => out ++ [st]
  | some prev =>
    match mergeDecls prev st with
    | some merged => out.dropLast ++ [merged]
    | none => out ++ [st]

mutual
/-- `combine_stmt` (`decl_combine.rs:80-140`). -/
def combineStmt : Stmt → Stmt
  | .block body => .block (combineList [] body)
  | .ifThen c t => .ifThen c (combineStmt t)
  | .ifElse c t e => .ifElse c (combineStmt t) (combineStmt e)
  | .while c body => .while c (combineStmt body)
  | .doWhile body c => .doWhile (combineStmt body) c
  | .for init test update braced body => .for init test update braced (combineList [] body)
  | .each kind lhs e braced body => .each kind lhs e braced (combineList [] body)
  | .switch e tests bodies => .switch e tests (combineLists bodies)
  | .tries body hasCatch param handler hasFinally last =>
      .tries (combineList [] body) hasCatch param (combineList [] handler) hasFinally
        (combineList [] last)
  | .withs e body => .withs e (combineStmt body)
  | .label l body => .label l (combineStmt body)
  | st => st
/-- The loop of `combine_stmts` (`decl_combine.rs:33-46`) with what it has pushed so far. -/
def combineList (out : List Stmt) : List Stmt → List Stmt
  | [] => out
  | st :: rest => combineList (pushMerged out (combineStmt st)) rest
/-- The branches of a `switch` (`decl_combine.rs:152-156`). -/
def combineLists : List (List Stmt) → List (List Stmt)
  | [] => []
  | b :: rest => combineList [] b :: combineLists rest
end

/-! ## `cf_rewrite.rs` -/

mutual
/-- `is_unconditional_terminator` (`cf_rewrite.rs:61-71`). -/
def isTerminator : Stmt → Bool
  | .ret _ => true
  | .throw _ => true
  | .brk _ => true
  | .cont _ => true
  | .block body => lastTerminates body
  | _ => false
/-- Whether the last statement of a list is one. -/
def lastTerminates : List Stmt → Bool
  | [] => false
  | st :: rest => if rest.isEmpty then isTerminator st else lastTerminates rest
end

/-- Is the statement a function declaration? (`cf_rewrite.rs:302`) -/
def isFunc : Stmt → Bool
  | .func _ _ _ => true
  | _ => false

/-- `drop_terminating_else` (`cf_rewrite.rs:291-317`). -/
def dropElse : List Stmt → List Stmt
  | [] => []
  | .ifElse c t e :: rest =>
      if !isTerminator t || isFunc e then .ifElse c t e :: dropElse rest
      else .ifThen c t :: e :: dropElse rest
  | st :: rest => st :: dropElse rest

mutual
/-- The names of a pattern. -/
def patNames : Pat → List String
  | .id x => [x]
  | .many ps => patsNames ps
  | .target _ => []
/-- The names of a list of patterns. -/
def patsNames : List Pat → List String
  | [] => []
  | p :: rest => patNames p ++ patsNames rest
end

/-- The names of declarators. -/
def declNames (ds : List Declarator) : List String := ds.flatMap fun d => patNames d.pat

/-- The symbols a statement declares in the scope of its list other than by `var`
(`collect_decl_symbols`, `cf_rewrite.rs:86-123`, and the test of `decl_scope` in
`analyze_unreachable_stmt`, `cf_rewrite.rs:155-167`): these have a dead zone or are functions.
A function which is itself the branch of an `if` is left out. -/
def scopedNames : Stmt → List String
  | .decl _ .var _ => []
  | .decl _ _ ds => declNames ds
  | .func x _ _ => [x]
  | .cls x _ => [x]
  | .label _ st => scopedNames st
  | _ => []

/-- The names of the head of a `for`. -/
def initNames : ForInit → List String
  | .decl .var ds => declNames ds
  | _ => []

/-- The names of the head of a `for … in` or `for … of`. -/
def lhsNames : ForLhs → List String
  | .decl .var p => patNames p
  | _ => []

mutual
/-- The symbols a statement declares in the variable scope: by `var`, or by a function in a block
with a `var` binding beside it (`effective`, `cf_rewrite.rs:144-149`). -/
def hoistedNames : Stmt → List String
  | .decl _ .var ds => declNames ds
  | .func x _ annexB => if annexB then [x] else []
  | .for init _ _ _ body => initNames init ++ hoistedNamesList body
  | .each _ lhs _ _ body => lhsNames lhs ++ hoistedNamesList body
  | .block body => hoistedNamesList body
  | .ifThen _ t => hoistedNames t
  | .ifElse _ t e => hoistedNames t ++ hoistedNames e
  | .while _ body => hoistedNames body
  | .doWhile body _ => hoistedNames body
  | .switch _ _ bodies => hoistedNamesLists bodies
  | .tries body hasCatch _ handler hasFinally last =>
      hoistedNamesList body ++ (if hasCatch then hoistedNamesList handler else []) ++
        (if hasFinally then hoistedNamesList last else [])
  | .withs _ body => hoistedNames body
  | .label _ body => hoistedNames body
  | _ => []
/-- The same for a list. -/
def hoistedNamesList : List Stmt → List String
  | [] => []
  | st :: rest => hoistedNames st ++ hoistedNamesList rest
/-- The same for the branches of a `switch`. -/
def hoistedNamesLists : List (List Stmt) → List String
  | [] => []
  | b :: rest => hoistedNamesList b ++ hoistedNamesLists rest
end

/-- `analyze_unreachable_stmt` (`cf_rewrite.rs:131-217`) and what
`trim_unreachable_after_terminator` makes of the answer (`cf_rewrite.rs:336-345`). The stubs are
sorted by name in the code (`cf_rewrite.rs:228-229`); here they keep the order of the source. -/
def unreachable (st : Stmt) : List Stmt :=
  if (scopedNames st).isEmpty && (hoistedNames st).isEmpty then []
  else if !(scopedNames st).isEmpty then [st]
  else [hoistedDecl ((hoistedNames st).foldl pushUnique [])]

/-- `trim_unreachable_after_terminator` (`cf_rewrite.rs:319-349`). -/
def trim : Bool → List Stmt → List Stmt
  | _, [] => []
  | false, st :: rest => st :: trim (isTerminator st) rest
  | true, st :: rest => unreachable st ++ trim true rest

/-- What the binder says about a list (`cf_rewrite.rs:265-272`): its first statement has no scope;
its scope or variable scope is one that `with` or `eval` disables; it is in no variable scope (a
script); or none of these. -/
inductive Site
  | unbound | disabled | script | bound
deriving DecidableEq, Repr

/-- The first half of `rewrite_stmts` (`cf_rewrite.rs:274-283`). -/
def flowHere (site : Site) (inList : Bool) (sts : List Stmt) : List Stmt :=
  let sts := if (site == .script || site == .bound) && inList then dropElse sts else sts
  if site == .bound then trim false sts else sts

mutual
/-- A bound on how deep statements go; `cf_rewrite.rs` has no counterpart, it recurses freely. -/
def size : Stmt → Nat
  | .for _ _ _ _ body => sizes body + 1
  | .each _ _ _ _ body => sizes body + 1
  | .block body => sizes body + 1
  | .ifThen _ t => size t + 1
  | .ifElse _ t e => size t + size e + 1
  | .while _ body => size body + 1
  | .doWhile body _ => size body + 1
  | .switch _ _ bodies => sizess bodies + 1
  | .tries body _ _ handler _ last => sizes body + sizes handler + sizes last + 1
  | .withs _ body => size body + 1
  | .label _ body => size body + 1
  | _ => 1
/-- The same for a list. -/
def sizes : List Stmt → Nat
  | [] => 1
  | st :: rest => size st + sizes rest + 1
/-- The same for the branches of a `switch`. -/
def sizess : List (List Stmt) → Nat
  | [] => 1
  | b :: rest => sizes b + sizess rest + 1
end

mutual
/-- `rewrite_stmt` (`cf_rewrite.rs:351-408`). -/
def flowStmt (on : List Stmt → Site) : Nat → Stmt → Stmt
  | 0, st => st
  | n + 1, .block body => .block (flowList on n true body)
  | n + 1, .ifThen c t => .ifThen c (flowStmt on n t)
  | n + 1, .ifElse c t e => .ifElse c (flowStmt on n t) (flowStmt on n e)
  | n + 1, .while c body => .while c (flowStmt on n body)
  | n + 1, .doWhile body c => .doWhile (flowStmt on n body) c
  | n + 1, .for init test update braced body =>
      .for init test update braced (flowList on n (braced || body.isEmpty) body)
  | n + 1, .each kind lhs e braced body =>
      .each kind lhs e braced (flowList on n (braced || body.isEmpty) body)
  | n + 1, .switch e tests bodies => .switch e tests (bodies.map (flowList on n true))
  | n + 1, .tries body hasCatch param handler hasFinally last =>
      .tries (flowList on n true body) hasCatch param (flowList on n true handler) hasFinally
        (flowList on n true last)
  | n + 1, .withs e body => .withs e (flowStmt on n body)
  | n + 1, .label l body => .label l (flowStmt on n body)
  | _ + 1, st => st
/-- `rewrite_stmts` (`cf_rewrite.rs:259-289`). The first argument is a bound on the depth. -/
def flowList (on : List Stmt → Site) : Nat → Bool → List Stmt → List Stmt
  | 0, _, sts => sts
  | n + 1, inList, sts =>
      if on sts = .unbound then sts
      else (flowHere (on sts) inList sts).map (flowStmt on n)
end

/-! ## The passes -/

/-- The four passes (`/repo/minify-js/src/opt/mod.rs:26-57`). The control flow pass asks the binder
about each list. -/
inductive Pass
  | stmts
  | cleanup
  | combine
  | flow (on : List Stmt → Site)

/-- A pass over one body. `inherited` says that the code around the body is strict, that it is a
module or that it is a class static block (`stmt_rewrite.rs:56-96`). -/
def Pass.run (inherited : Bool) (body : List Stmt) : Pass → List Stmt
  | .stmts => rewriteList (inherited || hasUseStrict body) body
  | .cleanup => cleanList body
  | .combine => combineList [] body
  | .flow on => flowList on (sizes body) true body

end Verif.Stmts
