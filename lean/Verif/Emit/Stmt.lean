import Verif.Emit.Model

/-!
# Statement parser and statement printers

Model of the statement parser of parse-js (`parse/stmt/mod.rs`, `parse/stmt/decl.rs`) and of the two
statement printers of emit-js: `js_stmt.rs` with `asi.rs`, which may leave out semicolons, and
`stmt.rs`, which writes them all.
-/

namespace Verif.Emit

/-- Models the members of `VarDeclMode` that exist in ECMAScript without resource management,
parse-js/src/ast/stmt/decl.rs. -/
inductive VarMode | var | let_ | const
  deriving DecidableEq, Repr

/-- A declared variable and its initialiser. Models `VarDeclarator`; destructuring patterns and type
annotations are left out. -/
abbrev Declarator := Nat × Option Expr

/-- Models `ForTripleStmtInit`, parse-js/src/ast/stmt/mod.rs. -/
inductive ForInit
  | none
  | expr (e : Expr)
  | decl (m : VarMode) (ds : List Declarator)
  deriving DecidableEq

mutual
/-- Statements. Models `Stmt`, parse-js/src/ast/stmt/mod.rs. Declarations and statements that end with
their own `}` and are not looked into (functions, classes, `switch`, `try`) are a `decl`; `for … in`,
`for … of`, `with`, imports, exports and TypeScript statements are left out. -/
inductive Stmt
  | empty
  | block (b : Stmts)
  | expr (e : Expr)
  | ifs (c : Expr) (t : Stmt)
  | ifElse (c : Expr) (t f : Stmt)
  | while_ (c : Expr) (b : Stmt)
  | doWhile (b : Stmt) (c : Expr)
  | forT (init : ForInit) (cond post : Option Expr) (body : Stmts)
  | var_ (m : VarMode) (ds : List Declarator)
  | brk (l : Option Nat)
  | cont (l : Option Nat)
  | ret (e : Option Expr)
  | throw (e : Expr)
  | label (n : Nat) (s : Stmt)
  | debugger
  | decl (n : Nat)
/-- Statement lists. -/
inductive Stmts
  | nil
  | cons (s : Stmt) (rest : Stmts)
end

deriving instance DecidableEq for Stmt, Stmts

/-! ## The parser

Strict ECMAScript, as for expressions. Names are never the contextual keywords `let`, `using`,
`async`, `of`, …. Line terminators are modelled between statements and where the parser asks for them;
elsewhere (after `if`, inside a `for` header, …), where the printers never write one, they are refused.
The checks that `break`, `continue`, labels and `return` stand where they may are not modelled: they
only reject programs. -/

/-- The tokens from the next one on, whether or not a line terminator precedes it: what `peek`,
`consume_if` and `require` look at, parse-js/src/parse/mod.rs:543-614. -/
def dropNls : List Tok → List Tok
  | .nl :: r => r
  | ts => ts

/-- Consume a semicolon if it is next: `consume_if(TT::Semicolon)`. After an expression that has been
read up to a semicolon or to a place where one is inserted (`did_end_with_asi`) this is
`if !asi.did_end_with_asi { require(TT::Semicolon) }`, parse-js/src/parse/stmt/mod.rs:464-486. -/
def skipSemi (ts : List Tok) : List Tok :=
  match dropNls ts with
  | .semi :: r => r
  | _ => ts

/-- The label and the end of `break` and `continue`.
Models `break_or_continue_label`, parse-js/src/parse/stmt/mod.rs:387-403. -/
def jumpLabel : List Tok → Option (Option Nat × List Tok)
  | .id n :: r => some (some n, r)
  | .semi :: r => some (none, r)
  | .nl :: .semi :: r => some (none, r)
  | .nl :: r => some (none, .nl :: r)
  | .rbrace :: r => some (none, .rbrace :: r)
  | _ => none

/-- Models `var_decl_mode`, parse-js/src/parse/stmt/decl.rs:41-59. -/
def varMode : Tok → Option VarMode
  | .kvar => some .var
  | .klet => some .let_
  | .kconst => some .const
  | _ => none

/-- An optional initialiser. Models parse-js/src/parse/stmt/decl.rs:92-111. -/
def initialiser (term : List Tok) (asi : Bool) (ts : List Tok) : Option (Option Expr × List Tok) :=
  match dropNls ts with
  | .eq :: r => do
    let (e, r) ← exprMin term asi 1 r
    some (some e, r)
  | _ => some (none, ts)

/-- The declarators of a statement. Models the loop of `var_decl` in mode `Asi`,
parse-js/src/parse/stmt/decl.rs:76-141. -/
def declarators (ts : List Tok) : Option (List Declarator × List Tok) :=
  match ts with
  | .id n :: r => do
    let (i, r) ← initialiser [.semi, .comma] true r
    match dropNls r with
    | .semi :: r => some ([(n, i)], r)
    | .comma :: r => do
      let (ds, r) ← declarators r
      some ((n, i) :: ds, r)
    | _ =>
      match r with
      | [] | .rbrace :: _ | .nl :: _ => some ([(n, i)], r)
      | _ => none
  | _ => none
partial_fixpoint

/-- The declarators of a `for` header. Models the loop of `var_decl` in mode `Leftmost`,
parse-js/src/parse/stmt/decl.rs:76-141. -/
def headerDeclarators (ts : List Tok) : Option (List Declarator × List Tok) :=
  match ts with
  | .id n :: r => do
    let (i, r) ← initialiser [.semi, .comma, .in_] false r
    match r with
    | .comma :: r => do
      let (ds, r) ← headerDeclarators r
      some ((n, i) :: ds, r)
    | _ => some ([(n, i)], r)
  | _ => none
partial_fixpoint

/-- Whether a header that starts with an expression is that of `for … in`.
Models the last case of `Type::determine`, parse-js/src/parse/stmt/mod.rs:889-899. -/
def isForIn (ts : List Tok) : Bool :=
  match exprMin [.in_] false 1 ts with
  | some (_, .in_ :: _) => true
  | _ => false

/-- The first part of a `for` header up to and with its semicolon.
Models parse-js/src/parse/stmt/mod.rs:522-554 and `Type::determine`, 789-904.
`for … in` is refused. -/
def forInit (ts : List Tok) : Option (ForInit × List Tok) :=
  match ts with
  | .semi :: r => some (.none, r)
  | [] => none
  | t :: r =>
    match varMode t with
    | some m => do
      let (ds, r) ← headerDeclarators r
      let r ← expect .semi r
      some (.decl m ds, r)
    | none =>
      if isForIn ts then none else do
      let (e, r) ← exprMin [.semi] false 1 ts
      let r ← expect .semi r
      some (.expr e, r)

/-- The condition or the last part of a `for` header up to and with its end token.
Models parse-js/src/parse/stmt/mod.rs:555-562. -/
def forPart (stop : Tok) (ts : List Tok) : Option (Option Expr × List Tok) :=
  match ts with
  | [] => none
  | t :: r =>
    if t = stop then some (none, r) else do
    let (e, r) ← exprMin [stop] false 1 ts
    let r ← expect stop r
    some (some e, r)

mutual
/-- Models `stmt`, parse-js/src/parse/stmt/mod.rs:71-190, with `label_stmt` (333-354), `block_stmt`
(378-385), `break_stmt` (405-429), `continue_stmt` (431-461), `debugger_stmt` (463-465), `expr_stmt`
(468-496), `if_stmt` (918-934), `return_stmt` (936-959), `throw_stmt` (961-975), `while_stmt`
(1028-1042) and `do_while_stmt` (1062-1079).
Simplification: where the text of an object literal, a function or a class expression begins a
statement the code reads a block or a declaration; this is refused. -/
def stmt (ts : List Tok) : Option (Stmt × List Tok) :=
  match dropNls ts with
  | .semi :: r => some (.empty, r)
  | .lbrace :: r => do
    let (b, r) ← stmts r
    let r ← expect .rbrace (dropNls r)
    some (.block b, r)
  | .kbreak :: r => do
    let (l, r) ← jumpLabel r
    some (.brk l, r)
  | .kcontinue :: r => do
    let (l, r) ← jumpLabel r
    some (.cont l, r)
  | .kdebugger :: r => some (.debugger, r)
  | .decl n :: r => some (.decl n, r)
  | .kif :: r => do
    let r ← expect .lp r
    let (c, r) ← exprMin [.rp] false 1 r
    let r ← expect .rp r
    let (t, r) ← stmt r
    match dropNls r with
    | .kelse :: r => do
      let (f, r) ← stmt r
      some (.ifElse c t f, r)
    | _ => some (.ifs c t, r)
  | .kwhile :: r => do
    let r ← expect .lp r
    let (c, r) ← exprMin [.rp] false 1 r
    let r ← expect .rp r
    let (b, r) ← stmt r
    some (.while_ c b, r)
  | .kdo :: r => do
    let (b, r) ← stmt r
    let r ← expect .kwhile (dropNls (skipSemi r))
    let r ← expect .lp r
    let (c, r) ← exprMin [.rp] false 1 r
    let r ← expect .rp r
    some (.doWhile b c, r)
  | .kfor :: r => do
    let r ← expect .lp r
    let (i, r) ← forInit r
    let (c, r) ← forPart .semi r
    let (p, r) ← forPart .rp r
    let (b, r) ← forBody r
    some (.forT i c p b, r)
  | .kvar :: r => do
    let (ds, r) ← declarators r
    some (.var_ .var ds, r)
  | .klet :: r => do
    let (ds, r) ← declarators r
    some (.var_ .let_ ds, r)
  | .kconst :: r => do
    let (ds, r) ← declarators r
    some (.var_ .const ds, r)
  | .kreturn :: r =>
    match r with
    | .nl :: _ | .rbrace :: _ => some (.ret none, r)
    | .semi :: r => some (.ret none, r)
    | _ => do
      let (e, r) ← exprMin [.semi] true 1 r
      some (.ret (some e), skipSemi r)
  | .kthrow :: r =>
    match r with
    | .nl :: _ => none
    | _ => do
      let (e, r) ← exprMin [.semi] true 1 r
      some (.throw e, skipSemi r)
  | .obj _ :: _ => none
  | .func _ :: _ => none
  | .id n :: r =>
    match dropNls r with
    | .colon :: r => do
      let (s, r) ← stmt r
      some (.label n s, r)
    | _ => do
      let (e, r) ← exprMin [.semi] true 1 (.id n :: r)
      some (.expr e, skipSemi r)
  | ts => do
    let (e, r) ← exprMin [.semi] true 1 ts
    some (.expr e, skipSemi r)
partial_fixpoint

/-- Statements up to a `}` or the end of the text. Models `stmts`,
parse-js/src/parse/stmt/mod.rs:67-69, for both of its end tokens; where the other one comes first the
code reports an error, and so does the caller here. -/
def stmts (ts : List Tok) : Option (Stmts × List Tok) :=
  match dropNls ts with
  | [] => some (.nil, [])
  | .rbrace :: r => some (.nil, .rbrace :: r)
  | ts => do
    let (s, r) ← stmt ts
    let (ss, r) ← stmts r
    some (.cons s ss, r)
partial_fixpoint

/-- Models `for_body`, parse-js/src/parse/stmt/mod.rs:498-520. -/
def forBody (ts : List Tok) : Option (Stmts × List Tok) :=
  match dropNls ts with
  | .lbrace :: r => do
    let (b, r) ← stmts r
    let r ← expect .rbrace (dropNls r)
    some (b, r)
  | ts => do
    let (s, r) ← stmt ts
    some (.cons s .nil, r)
partial_fixpoint
end

/-- A whole text: `parse_top_level`, parse-js/src/parse/stmt/mod.rs:67-69 with end token `EOF`. -/
def program (ts : List Tok) : Option Stmts := do
  let (ss, r) ← stmts ts
  if r = [] then some ss else none

/-! ## The printer that may leave out semicolons -/

/-- Models `StmtSepStyle`, emit-js/src/emitter.rs. -/
inductive Style | semicolons | asiNewlines
  deriving DecidableEq, Repr

/-- Models `StmtStartToken`, emit-js/src/asi.rs:7-16. -/
inductive StartTok | paren | bracket | plus | minus | slash | template | other
  deriving DecidableEq, Repr

/-- Models `StmtLeafEnd`, emit-js/src/asi.rs:18-23. -/
inductive LeafEnd | blockLike | emptyStmt | other
  deriving DecidableEq, Repr

/-- Models `Separator`, emit-js/src/asi.rs:25-30. -/
inductive Separator | none | newline | semicolon
  deriving DecidableEq, Repr

/-- Models `expr_start_token` and `unary_start_token`, emit-js/src/asi.rs:163-193. -/
def exprStart : Expr → StartTok
  | .arr _ => .bracket
  | .tpl _ => .template
  | .regex _ => .slash
  | .obj _ | .func _ | .arrow _ _ => .paren
  | .unary op _ =>
    match op with
    | .plus | .incr => .plus
    | .neg | .decr => .minus
    | _ => .other
  | .post _ e => exprStart e
  | .binary _ l _ => exprStart l
  | .call _ f _ => exprStart f
  | .member _ o _ => exprStart o
  | .index _ o _ => exprStart o
  | .cond c _ _ => exprStart c
  | .tagged f _ => exprStart f
  | _ => .other

/-- Models `stmt_start_token`, emit-js/src/asi.rs:39-44. -/
def stmtStart : Stmt → StartTok
  | .expr e => exprStart e
  | _ => .other

mutual
/-- Models `stmt_leaf_end`, emit-js/src/asi.rs:46-75. -/
def leafEnd : Stmt → LeafEnd
  | .block _ | .decl _ => .blockLike
  | .empty => .emptyStmt
  | .label _ s => leafEnd s
  | .while_ _ b => leafEnd b
  | .forT _ _ _ b => bodyLeafEnd b
  | .ifs _ t => leafEnd t
  | .ifElse _ _ f => leafEnd f
  | _ => .other
/-- Models `for_body_leaf_end`, emit-js/src/asi.rs:131-137. -/
def bodyLeafEnd : Stmts → LeafEnd
  | .nil => .blockLike
  | .cons s .nil => leafEnd s
  | _ => .blockLike
end

/-- Models `var_decl_ends_with_initializer`, emit-js/src/asi.rs:147-149. -/
def endsWithInit (ds : List Declarator) : Bool :=
  match ds.getLast? with
  | some (_, some _) => true
  | _ => false

mutual
/-- Models `stmt_tail_is_expression_like`, emit-js/src/asi.rs:76-100. -/
def tailExpr : Stmt → Bool
  | .expr _ => true
  | .ret v => v.isSome
  | .throw _ => true
  | .var_ _ ds => endsWithInit ds
  | .label _ s => tailExpr s
  | .while_ _ b => tailExpr b
  | .forT _ _ _ b => bodyTailExpr b
  | .ifs _ t => tailExpr t
  | .ifElse _ _ f => tailExpr f
  | _ => false
/-- Models `for_body_tail_is_expression_like`, emit-js/src/asi.rs:139-145. -/
def bodyTailExpr : Stmts → Bool
  | .nil => false
  | .cons s .nil => tailExpr s
  | _ => false
end

/-- Models `is_hazard_start`, emit-js/src/asi.rs:151-161. -/
def isHazard : StartTok → Bool
  | .paren | .bracket | .plus | .minus | .slash | .template => true
  | .other => false

/-- Models `separator_between`, emit-js/src/asi.rs:102-118. -/
def separatorBetween (prev : Option Stmt) (next : Stmt) : Separator :=
  match prev with
  | none => .none
  | some p =>
    match leafEnd p with
    | .blockLike => .none
    | .emptyStmt => .semicolon
    | .other => if isHazard (stmtStart next) && tailExpr p then .semicolon else .newline

/-- Models emit-js/src/js_stmt.rs:35-41. -/
def sepToks : Separator → List Tok
  | .none => []
  | .newline => [.nl]
  | .semicolon => [.semi]

/-- A semicolon, if the style asks for one: emit-js/src/js_stmt.rs:75-77. -/
def semiJ : Style → List Tok
  | .semicolons => [.semi]
  | .asiNewlines => []

/-- An expression in a statement: `emit_js_expr`, emit-js/src/js_expr.rs:270-273. -/
def exprJ (e : Expr) : List Tok := wrap (precA e) 1 (bodyJ e)

/-- The keyword of a declaration: emit-js/src/js_stmt.rs:172-182, emit-js/src/stmt.rs:370-380. -/
def modeTok : VarMode → Tok
  | .var => .kvar
  | .let_ => .klet
  | .const => .kconst

/-- One declarator, with the expression printer `pr`: emit-js/src/js_stmt.rs:188-192 and
emit-js/src/stmt.rs:382-396. -/
def declTok (pr : Expr → List Tok) : Declarator → List Tok
  | (n, none) => [.id n]
  | (n, some e) => .id n :: .eq :: pr e

/-- Declarators separated by commas: emit-js/src/js_stmt.rs:183-193, emit-js/src/stmt.rs:358-363. -/
def declsTok (pr : Expr → List Tok) : List Declarator → List Tok
  | [] => []
  | [d] => declTok pr d
  | d :: ds => declTok pr d ++ .comma :: declsTok pr ds

/-- The first part of a `for` header: emit-js/src/js_stmt.rs:139-145, emit-js/src/stmt.rs:141-154
(`for_init_expr_needs_parens` is about names that are contextual keywords, which are not modelled). -/
def initTok (pr : Expr → List Tok) : ForInit → List Tok
  | .none => []
  | .expr e => pr e
  | .decl m ds => modeTok m :: declsTok pr ds

/-- An optional expression of a `for` header or `return`: emit-js/src/js_stmt.rs:128-134,
emit-js/src/stmt.rs:155-161, 314-316. -/
def optTok (pr : Expr → List Tok) : Option Expr → List Tok
  | none => []
  | some e => pr e

/-- A `for` header: emit-js/src/js_stmt.rs:124-135, emit-js/src/stmt.rs:138-162. -/
def headTok (pr : Expr → List Tok) (i : ForInit) (c p : Option Expr) : List Tok :=
  .kfor :: .lp :: initTok pr i ++ .semi :: optTok pr c ++ .semi :: optTok pr p ++ [.rp]

/-- The label of a jump: emit-js/src/js_stmt.rs:73-75, emit-js/src/stmt.rs:323-325. -/
def labTok : Option Nat → List Tok
  | none => []
  | some n => [.id n]

/-- `Stmt::Empty`: emit-js/src/js_stmt.rs:31. -/
def isEmpty : Stmt → Bool
  | .empty => true
  | _ => false

mutual
/-- Statements the printer does not report as unsupported: emit-js/src/js_stmt.rs:50-62. -/
def supportedSJ : Stmt → Bool
  | .empty => true
  | .block b => supportedLJ b
  | .brk _ => true
  | .expr e => supportedJ e
  | .forT i c p b =>
    (match i with
     | .none => true
     | .expr e => supportedJ e
     | .decl _ ds => ds.all fun d => d.2.all supportedJ) &&
    c.all supportedJ && p.all supportedJ && supportedLJ b
  | .ifs c t => supportedJ c && supportedSJ t
  | .ifElse c t f => supportedJ c && supportedSJ t && supportedSJ f
  | .var_ _ ds => ds.all fun d => d.2.all supportedJ
  | .while_ c b => supportedJ c && supportedSJ b
  | _ => false
/-- Lists of such statements. -/
def supportedLJ : Stmts → Bool
  | .nil => true
  | .cons s rest => supportedSJ s && supportedLJ rest
end

mutual
/-- The printer, on supported statements. Models `emit_js_stmt`, emit-js/src/js_stmt.rs:50-62, with
`emit_block` (64-69), `emit_break` (71-80), `emit_expr_stmt` (82-88), `emit_if` (90-101), `emit_while`
(115-121), `emit_for_triple` (123-137), `emit_for_body` (147-152) and `emit_var_decl` (154-201). -/
def stmtJ (st : Style) : Stmt → List Tok
  | .block b => .lbrace :: listJ st none b ++ [.rbrace]
  | .brk l => .kbreak :: labTok l ++ semiJ st
  | .expr e => exprJ e ++ semiJ st
  | .ifs c t => .kif :: .lp :: exprJ c ++ .rp :: asBlockJ st t
  | .ifElse c t f => .kif :: .lp :: exprJ c ++ .rp :: asBlockJ st t ++ .kelse :: asBlockJ st f
  | .while_ c b => .kwhile :: .lp :: exprJ c ++ .rp :: asBlockJ st b
  | .forT i c p b => headTok exprJ i c p ++ .lbrace :: listJ st none b ++ [.rbrace]
  | .var_ m ds => modeTok m :: declsTok exprJ ds ++ semiJ st
  | _ => []
/-- Models `emit_stmt_as_block`, emit-js/src/js_stmt.rs:103-113. -/
def asBlockJ (st : Style) : Stmt → List Tok
  | .block b => .lbrace :: listJ st none b ++ [.rbrace]
  | .empty => [.lbrace, .rbrace]
  | .brk l => .lbrace :: (.kbreak :: labTok l ++ semiJ st) ++ [.rbrace]
  | .expr e => .lbrace :: (exprJ e ++ semiJ st) ++ [.rbrace]
  | .ifs c t => .lbrace :: (.kif :: .lp :: exprJ c ++ .rp :: asBlockJ st t) ++ [.rbrace]
  | .ifElse c t f =>
    .lbrace :: (.kif :: .lp :: exprJ c ++ .rp :: asBlockJ st t ++ .kelse :: asBlockJ st f) ++
      [.rbrace]
  | .while_ c b => .lbrace :: (.kwhile :: .lp :: exprJ c ++ .rp :: asBlockJ st b) ++ [.rbrace]
  | .forT i c p b =>
    .lbrace :: (headTok exprJ i c p ++ .lbrace :: listJ st none b ++ [.rbrace]) ++ [.rbrace]
  | .var_ m ds => .lbrace :: (modeTok m :: declsTok exprJ ds ++ semiJ st) ++ [.rbrace]
  | _ => [.lbrace, .rbrace]
/-- Models `emit_js_stmt_list`, emit-js/src/js_stmt.rs:26-48. -/
def listJ (st : Style) (prev : Option Stmt) : Stmts → List Tok
  | .nil => []
  | .cons s rest =>
    if isEmpty s then listJ st prev rest else
    (if st = .asiNewlines then sepToks (separatorBetween prev s) else []) ++
      stmtJ st s ++ listJ st (some s) rest
end

/-- `emit_js_stmt_list` on a whole program, emit-js/src/js_stmt.rs:26-48. Simplification: the code
reports an unsupported statement when it gets to it, having written what stands in front of it. -/
def emitProgJ (st : Style) (ss : Stmts) : Option (List Tok) :=
  if supportedLJ ss then some (listJ st none ss) else none

/-! ## The printer that writes all semicolons -/

/-- Models `expr_needs_paren_in_stmt`, emit-js/src/stmt.rs:106-111. -/
def stmtParens : Expr → Bool
  | .obj _ | .func _ | .arrow _ _ => true
  | _ => false

/-- An expression statement without its semicolon: emit-js/src/stmt.rs:94-102. -/
def exprStmtA (e : Expr) : List Tok := if stmtParens e then parens (emitA e) else emitA e

mutual
/-- A statement as body of another one. Models `emit_stmt_as_body`, emit-js/src/stmt.rs:113-121, and
`emit_stmt`, 40-85, with `emit_block` (87-92), `emit_expr_stmt` (94-104), `emit_if` (123-135),
`emit_for_triple` (137-164), `emit_while` (222-229), `emit_do_while` (231-242), `emit_throw` (305-310),
`emit_return` (312-319), `emit_break` (321-328), `emit_continue` (330-337), `emit_label` (347-351) and
`emit_var_decl` (353-368). -/
def stmtA : Stmt → List Tok
  | .empty => [.semi]
  | .block b => .lbrace :: listA b ++ [.rbrace]
  | .expr e => exprStmtA e ++ [.semi]
  | .ifs c t => .kif :: .lp :: emitA c ++ .rp :: stmtA t
  | .ifElse c t f => .kif :: .lp :: emitA c ++ .rp :: stmtA t ++ .kelse :: stmtA f
  | .while_ c b => .kwhile :: .lp :: emitA c ++ .rp :: stmtA b
  | .doWhile b c => .kdo :: stmtA b ++ .kwhile :: .lp :: emitA c ++ [.rp, .semi]
  | .forT i c p b => headTok emitA i c p ++ forBodyA b
  | .var_ m ds => modeTok m :: declsTok emitA ds ++ [.semi]
  | .brk l => .kbreak :: labTok l ++ [.semi]
  | .cont l => .kcontinue :: labTok l ++ [.semi]
  | .ret e => .kreturn :: optTok emitA e ++ [.semi]
  | .throw e => .kthrow :: emitA e ++ [.semi]
  | .label n s => .id n :: .colon :: stmtA s
  | .debugger => [.kdebugger, .semi]
  | .decl n => [.decl n]
/-- Models `emit_for_body`, emit-js/src/stmt.rs:210-220. -/
def forBodyA : Stmts → List Tok
  | .cons s .nil => stmtA s
  | b => .lbrace :: listA b ++ [.rbrace]
/-- Models `emit_stmt_list`, emit-js/src/stmt.rs:33-38; `emit_stmt` writes nothing for an empty
statement. -/
def listA : Stmts → List Tok
  | .nil => []
  | .cons s rest => (if isEmpty s then [] else stmtA s) ++ listA rest
end

end Verif.Emit
