import Verif.Emit.Op

/-!
# Expression printer and expression parser

Model of the two expression printers of emit-js (`expr_js.rs` for syntax trees and `hir.rs` for the
lowered form) and of the expression parser of parse-js (`parse/expr/mod.rs`), all on token lists.
-/

namespace Verif.Emit

mutual
/-- Expressions. Models `Expr`, parse-js/src/ast/expr/mod.rs, restricted to JavaScript operator
structure: primaries are opaque (see `Tok`), an arrow function is an opaque head and an expression
body, and assignment targets are expressions (identifier, member), so that destructuring patterns,
type assertions, non-null assertions, `satisfies`, instantiation expressions, JSX, `import(…)` and
arrow functions with block bodies are left out. -/
inductive Expr
  | id (n : Nat)
  | num (n : Nat)
  | obj (n : Nat)
  | prim (n : Nat)
  | tpl (n : Nat)
  | regex (n : Nat)
  | func (n : Nat)
  | unary (op : UnOp) (e : Expr)
  | post (op : PostOp) (e : Expr)
  | binary (op : BinOp) (l r : Expr)
  | cond (c t f : Expr)
  | call (opt : Bool) (f : Expr) (args : Items)
  | member (opt : Bool) (o : Expr) (p : Nat)
  | index (opt : Bool) (o i : Expr)
  | tagged (f : Expr) (n : Nat)
  | arr (es : Items)
  | arrow (n : Nat) (body : Expr)
/-- Call arguments (`CallArg`) and array elements (`LitArrElem`); holes occur in arrays only. -/
inductive Items
  | nil
  | hole (rest : Items)
  | item (spread : Bool) (e : Expr) (rest : Items)
end

deriving instance DecidableEq for Expr, Items

/-- An expression and whether it was written in parentheses (the `ParenthesizedExpr` mark). -/
abbrev Node := Expr × Bool

/-- The identifier the parser makes up for a `yield` without operand:
`create_synthetic_undefined`, parse-js/src/parse/expr/mod.rs:71-79. -/
def undefinedId : Nat := 0

/-! ## The parser

Strict ECMAScript (`Dialect::Ecma`: no TypeScript syntax, no error recovery), in a context where
`await` and `yield` are operators. Line terminators are modelled where an operator may stand (`loop`
and `newChain`); in front of an operand and inside argument and element lists, where the printers
never write one, they are refused. -/

/-- Models `starts_assignment_expr`, parse-js/src/parse/expr/mod.rs:811-869. -/
def startsOperand : Tok → Bool
  | .id _ | .num _ | .obj _ | .prim _ | .tpl _ | .regex _ | .func _ | .arrow _ => true
  | .lp | .lb | .new | .await | .yield => true
  | .plus | .minus | .plusplus | .minusminus | .bang | .tilde | .delete | .typeof | .void => true
  | .slash | .slashEq => true
  | _ => false

/-- Whether `yield`, `yield*` or `await` has an operand.
Models `has_operand`, parse-js/src/parse/expr/mod.rs:872-917; the token exclusions written out there
are tokens that do not start an operand. -/
def hasOperand (term : List Tok) : List Tok → Bool
  | [] => false
  | t :: _ => !(term.contains t) && startsOperand t

/-- A `yield` or `yield*` expression; parse-js/src/parse/expr/mod.rs:1291-1294. -/
def isYield : Expr → Bool
  | .unary .yield _ => true
  | .unary .yieldStar _ => true
  | _ => false

/-- An arrow function; parse-js/src/parse/expr/mod.rs:1306. -/
def isArrow : Expr → Bool
  | .arrow _ _ => true
  | _ => false

/-- The unary expressions that may not stand unparenthesised left of `**`.
Models `is_disallowed`, parse-js/src/parse/expr/mod.rs:1721-1737. -/
def powDisallowed : Expr → Bool
  | .unary op _ =>
    match op with
    | .await | .bnot | .delete | .not | .typeof | .neg | .plus | .void => true
    | _ => false
  | _ => false

/-- Whether an expression can be assigned to.
Models `lhs_expr_to_assign_target_with_recover` with `recover = false`,
parse-js/src/parse/expr/util.rs:252-278. Simplification: array and object literals, which become
destructuring patterns, are refused. -/
def isTarget : Node → Bool
  | (_, true) => false
  | (.id _, _) => true
  | (.member opt _ _, _) => !opt
  | (.index opt _ _, _) => !opt
  | _ => false

/-- Consume one given token: `require`, parse-js/src/parse/mod.rs. -/
def expect (t : Tok) : List Tok → Option (List Tok)
  | [] => none
  | u :: r => if u = t then some r else none

/-- A line terminator in front of a token that extends a constructor is passed over: the `peek` and
`consume_if` of parse-js/src/parse/expr/mod.rs:936-1030 do not look at it. -/
def dropNl : List Tok → List Tok
  | .nl :: .dot :: r => .dot :: r
  | .nl :: .qdot :: r => .qdot :: r
  | .nl :: .lb :: r => .lb :: r
  | .nl :: .qdotLb :: r => .qdotLb :: r
  | .nl :: .lp :: r => .lp :: r
  | ts => ts

mutual
/-- Parse an operand. Models `expr_operand`, parse-js/src/parse/expr/mod.rs:757-1259, with
`grouping` (215-237), `arrow_func_expr` for an expression body (239-395) and `lit_arr`
(parse-js/src/parse/expr/lit.rs:724-751). -/
def operand (term : List Tok) (asi : Bool) (ts : List Tok) : Option (Node × List Tok) :=
  match ts with
  | [] => none
  | t :: r =>
    match unaryOf t with
    | some .new => do
      let (c, r) ← operand term asi r
      let (c, r) ← newChain c.1 r
      match dropNl r with
      | .lp :: r => do
        let (as, r) ← callArgs r
        let r ← expect .rp r
        some ((.unary .new (.call false c as), false), r)
      | _ => some ((.unary .new c, false), r)
    | some .yield =>
      match r with
      | .star :: r =>
        if hasOperand term r then do
          let (e, r) ← exprMin term asi (nextMin (.un .yieldStar)) r
          some ((.unary .yieldStar e, false), r)
        else none
      | _ =>
        if hasOperand term r then do
          let (e, r) ← exprMin term asi (nextMin (.un .yield)) r
          some ((.unary .yield e, false), r)
        else some ((.unary .yield (.id undefinedId), false), r)
    | some .await =>
      if hasOperand term r then do
        let (e, r) ← exprMin term asi (nextMin (.un .await)) r
        some ((.unary .await e, false), r)
      else none
    | some op => do
      let (e, r) ← exprMin term asi (nextMin (.un op)) r
      some ((.unary op e, false), r)
    | none =>
      match t with
      | .id n => some ((.id n, false), r)
      | .num n => some ((.num n, false), r)
      | .obj n => some ((.obj n, false), r)
      | .prim n => some ((.prim n, false), r)
      | .tpl n => some ((.tpl n, false), r)
      | .regex n => some ((.regex n, false), r)
      | .func n => some ((.func n, false), r)
      | .arrow n =>
        match r with
        -- a `{` after `=>` opens a block body, which an object literal is not
        | .obj _ :: _ => none
        | _ => do
          let (e, r) ← exprMin term true 1 r
          if term.contains .colon && r.head? != some .colon then none else
          some ((.arrow n e, false), r)
      | .lb => do
        let (es, r) ← arrElems r
        let r ← expect .rb r
        some ((.arr es, false), r)
      | .lp => do
        let (e, r) ← exprMin [.rp] asi 1 r
        let r ← expect .rp r
        some ((e, true), r)
      | _ => none
partial_fixpoint

/-- The member accesses of a constructor in `new`.
Models the loop at parse-js/src/parse/expr/mod.rs:936-1016. -/
def newChain (c : Expr) (ts : List Tok) : Option (Expr × List Tok) :=
  match dropNl ts with
  | .dot :: .id p :: r => newChain (.member false c p) r
  | .dot :: _ => none
  | .qdot :: .id p :: r => newChain (.member true c p) r
  | .qdot :: _ => none
  | .lb :: r => do
    let (i, r) ← exprMin [.rb] false 1 r
    let r ← expect .rb r
    newChain (.index false c i) r
  | .qdotLb :: r => do
    let (i, r) ← exprMin [.rb] false 1 r
    let r ← expect .rb r
    newChain (.index true c i) r
  | _ => some (c, ts)
partial_fixpoint

/-- Models `call_args`, parse-js/src/parse/expr/mod.rs:81-96. -/
def callArgs (ts : List Tok) : Option (Items × List Tok) :=
  if ts.head? = some .rp then some (.nil, ts) else do
  let sp := ts.head? = some .dots
  let (e, r) ← exprMin [.comma, .rp] false 1 (if sp then ts.tail else ts)
  match r with
  | .comma :: r => do
    let (as, r) ← callArgs r
    some (.item sp e as, r)
  | _ => some (.item sp e .nil, r)
partial_fixpoint

/-- Models the loop of `lit_arr`, parse-js/src/parse/expr/lit.rs:728-746. -/
def arrElems (ts : List Tok) : Option (Items × List Tok) :=
  if ts.head? = some .comma then do
    let (es, r) ← arrElems ts.tail
    some (.hole es, r)
  else if ts.head? = some .rb then some (.nil, ts) else do
  let sp := ts.head? = some .dots
  let (e, r) ← exprMin [.comma, .rb] false 1 (if sp then ts.tail else ts)
  if r.head? = some .rb then some (.item sp e .nil, r) else do
  let r ← expect .comma r
  let (es, r) ← arrElems r
  some (.item sp e es, r)
partial_fixpoint

/-- Models `expr_with_min_prec` and the checks at the head of `expr_with_min_prec_after_left`,
parse-js/src/parse/expr/mod.rs:1262-1313. -/
def exprMin (term : List Tok) (asi : Bool) (m : Nat) (ts : List Tok) : Option (Expr × List Tok) := do
  let (l, r) ← operand term asi ts
  if m > prec (.un .yield) && (isYield l.1 || isArrow l.1) && !l.2 then none else
  loop term asi m l.1 l.2 r
partial_fixpoint

/-- Models the loop of `expr_with_min_prec_after_left`, parse-js/src/parse/expr/mod.rs:1314-1770.
Simplification: a token pair `a typeof b`, which the code accepts as a binary expression with the
operator `typeof` (also across a line terminator), is refused, and so is a line terminator followed by
a regular expression or by the parameters of an arrow function, whose first characters the code reads
as a division or a call. -/
def loop (term : List Tok) (asi : Bool) (m : Nat) (l : Expr) (par : Bool) (ts : List Tok) :
    Option (Expr × List Tok) :=
  match ts with
  | [] => if asi then some (l, []) else none
  | t :: r =>
    if term.contains t then some (l, ts) else
    match t with
    | .plusplus =>
      if prec (.post .incr) < m then some (l, ts) else loop term asi m (.post .incr l) false r
    | .minusminus =>
      if prec (.post .decr) < m then some (l, ts) else loop term asi m (.post .decr l) false r
    | .tpl n =>
      if isYield l && !par then none else loop term asi m (.tagged l n) false r
    | .nl =>
      match r with
      | [] => if asi then some (l, ts) else none
      | u :: _ =>
        if term.contains u then some (l, ts) else
        match u with
        | .plusplus | .minusminus => if asi then some (l, ts) else none
        | .tpl _ =>
          if isYield l && !par then (if asi then some (l, ts) else none)
          else loop term asi m l par r
        | .regex _ | .arrow _ | .nl | .typeof => none
        | _ =>
          match binaryOf u with
          | none => if asi then some (l, ts) else none
          | some op =>
            if prec op < m then some (l, ts) else
            if isYield l && !par && prec op > prec (.un .yield) then
              (if asi then some (l, ts) else none)
            else loop term asi m l par r
    | _ =>
      match binaryOf t with
      | none => if asi && t = .rbrace then some (l, ts) else none
      | some op =>
        if prec op < m then some (l, ts) else
        if isYield l && !par && prec op > prec (.un .yield) then none else
        match op with
        | .call => do
          let (as, r) ← callArgs r
          let r ← expect .rp r
          loop term asi m (.call false l as) false r
        | .optCall => do
          let (as, r) ← callArgs r
          let r ← expect .rp r
          loop term asi m (.call true l as) false r
        | .computed => do
          let (i, r) ← exprMin [.rb] false 1 r
          let r ← expect .rb r
          loop term asi m (.index false l i) false r
        | .optComputed => do
          let (i, r) ← exprMin [.rb] false 1 r
          let r ← expect .rb r
          loop term asi m (.index true l i) false r
        | .conditional => do
          let (a, r) ← exprMin [.colon] false 1 r
          let r ← expect .colon r
          let (b, r) ← exprMin term asi (prec .conditionalAlternate) r
          loop term asi m (.cond l a b) false r
        | .member =>
          match r with
          | .id p :: r => loop term asi m (.member false l p) false r
          | _ => none
        | .optMember =>
          match r with
          | .id p :: r => loop term asi m (.member true l p) false r
          | _ => none
        | .bin b =>
          if b = .pow && powDisallowed l && !par then none else
          if b.isAssignment && !isTarget (l, par) then none else do
          let (x, r) ← exprMin term asi (nextMin (.bin b)) r
          loop term asi m (.binary b l x) false r
        | _ => none
partial_fixpoint
end

/-- `Parser::expr_with_asi`, parse-js/src/parse/expr/mod.rs:107-114: an expression up to one of the
terminators. -/
def parseExpr (term : List Tok) (asi : Bool) (ts : List Tok) : Option (Expr × List Tok) :=
  exprMin term asi 1 ts

/-! ## The printers -/

/-- Models `child_min_prec_for_binary(op, Side::Left)`, emit-js/src/precedence.rs:50-66. -/
def leftMin (b : BinOp) : Nat :=
  match assoc (.bin b) with
  | .left => prec (.bin b)
  | .right => prec (.bin b) + 1

/-- Models `child_min_prec_for_binary(op, Side::Right)`, emit-js/src/precedence.rs:50-66. -/
def rightMin (b : BinOp) : Nat :=
  match assoc (.bin b) with
  | .left => prec (.bin b) + 1
  | .right => prec (.bin b)

/-- Models `starts_with_optional_chaining`, emit-js/src/precedence.rs:111-126, and the function of
the same name at emit-js/src/hir.rs:2392-2404 for expressions without `new` inside. -/
def startsOpt : Expr → Bool
  | .member opt o _ => opt || startsOpt o
  | .index opt o _ => opt || startsOpt o
  | .call opt f _ => opt || startsOpt f
  | _ => false

/-- Models `expr_precedence`, emit-js/src/expr_js.rs:65-117 (with `ARROW_PRECEDENCE = 3`). -/
def precA : Expr → Nat
  | .binary b _ _ => prec (.bin b)
  | .cond _ _ _ => prec .conditional
  | .unary u _ => prec (.un u)
  | .post p _ => prec (.post p)
  | .call _ _ _ | .member _ _ _ | .index _ _ _ | .tagged _ _ => 18
  | .arrow _ _ => 3
  | _ => 19

/-- Models `expr_prec`, emit-js/src/hir.rs:1506-1554, where `ARROW_FUNCTION_PRECEDENCE` is 2
(emit-js/src/precedence.rs:38). -/
def precH : Expr → Nat
  | .arrow _ _ => 2
  | e => precA e

/-- Parenthesise. -/
def parens (ts : List Tok) : List Tok := .lp :: (ts ++ [.rp])

/-- The printed operand `ts` of precedence `p` where precedence `m` is required.
Models `emit_expr_with_min_prec`, emit-js/src/expr_js.rs:45-63 and emit-js/src/hir.rs:1487-1504. -/
def wrap (p m : Nat) (ts : List Tok) : List Tok := if p < m then parens ts else ts

/-- Models `is_nullish`, emit-js/src/expr_js.rs:1040-1045. -/
def isNullish : Expr → Bool
  | .binary .nullish _ _ => true
  | _ => false

/-- Models `is_logical_and_or`, emit-js/src/expr_js.rs:1047-1054. -/
def isAndOr : Expr → Bool
  | .binary .land _ _ => true
  | .binary .lor _ _ => true
  | _ => false

/-- `Expr::Unary(_) | Expr::UnaryPostfix(_)`, emit-js/src/expr_js.rs:176-179. -/
def isUnaryA : Expr → Bool
  | .unary _ _ => true
  | .post _ _ => true
  | _ => false

/-- Models `force_left_parens`, emit-js/src/expr_js.rs:175-184. -/
def forceLeftA (b : BinOp) (l : Expr) : Bool :=
  (b = .pow && isUnaryA l) || (b = .nullish && isAndOr l) ||
    ((b = .land || b = .lor) && isNullish l)

/-- Models `force_right_parens`, emit-js/src/expr_js.rs:186-190. -/
def forceRightA (b : BinOp) (r : Expr) : Bool :=
  (b = .nullish && isAndOr r) || ((b = .land || b = .lor) && isNullish r)

/-- Models `expr_starts_with_brace`, emit-js/src/expr_js.rs:1022-1038. -/
def startsBrace : Expr → Bool
  | .obj _ => true
  | .binary _ l _ => startsBrace l
  | .call _ f _ => startsBrace f
  | .member _ o _ => startsBrace o
  | .index _ o _ => startsBrace o
  | .tagged f _ => startsBrace f
  | .post _ e => startsBrace e
  | .cond c _ _ => startsBrace c
  | _ => false

/-- Models `is_comma_expression`, emit-js/src/expr_js.rs:1018-1020. -/
def isComma : Expr → Bool
  | .binary .comma _ _ => true
  | _ => false

/-- `?.(` or `(`: emit-js/src/expr_js.rs:306-310. -/
def callTok (opt : Bool) : Tok := if opt then .qdotLp else .lp
/-- `?.` or `.`: emit-js/src/expr_js.rs:326-343. -/
def dotTok (opt : Bool) : Tok := if opt then .qdot else .dot
/-- `?.[` or `[`: emit-js/src/expr_js.rs:351-355. -/
def brackTok (opt : Bool) : Tok := if opt then .qdotLb else .lb

mutual
/-- The printer for syntax trees, without outer parentheses.
Models `emit_expr_no_parens`, emit-js/src/expr_js.rs:119-165, with `emit_binary` (167-248),
`emit_conditional` (250-260), `emit_call` (269-324), `emit_member` (326-343),
`emit_computed_member` (345-359), `emit_unary` (386-414), `emit_new_expr` (416-462),
`emit_postfix` (464-473), `emit_array_literal` (475-492), `emit_arrow_function` (772-814) and
`emit_tagged_template` (894-901). -/
def bodyA : Expr → List Tok
  | .id n => [.id n]
  | .num n => [.num n]
  | .obj n => [.obj n]
  | .prim n => [.prim n]
  | .tpl n => [.tpl n]
  | .regex n => [.regex n]
  | .func n => [.func n]
  | .unary .new (.call true f as) => .new :: parens (bodyA (.call true f as))
  | .unary .new (.call false f as) =>
    .new :: (if startsOpt f then parens (wrap (precA f) 18 (bodyA f))
             else wrap (precA f) 18 (bodyA f)) ++ .lp :: itemsA true as ++ [.rp]
  | .unary .new e =>
    .new :: (if startsOpt e then parens (wrap (precA e) 18 (bodyA e))
             else wrap (precA e) 18 (bodyA e))
  | .unary op e => unTok op ++ wrap (precA e) (prec (.un op)) (bodyA e)
  | .post op e => wrap (precA e) 17 (bodyA e) ++ [postTok op]
  | .binary b l r =>
    (if forceLeftA b l then parens (bodyA l) else wrap (precA l) (leftMin b) (bodyA l)) ++
      binTok b ::
      (if forceRightA b r then parens (bodyA r) else wrap (precA r) (rightMin b) (bodyA r))
  | .cond c t f =>
    wrap (precA c) (prec .conditional + 1) (bodyA c) ++ .question ::
      wrap (precA t) (prec .conditional) (bodyA t) ++ .colon ::
      wrap (precA f) (prec .conditional) (bodyA f)
  | .call opt f as => wrap (precA f) 18 (bodyA f) ++ callTok opt :: itemsA true as ++ [.rp]
  | .member opt o p => wrap (precA o) 18 (bodyA o) ++ [dotTok opt, .id p]
  | .index opt o i =>
    wrap (precA o) 18 (bodyA o) ++ brackTok opt :: wrap (precA i) 1 (bodyA i) ++ [.rb]
  | .tagged f n => wrap (precA f) 18 (bodyA f) ++ [.tpl n]
  | .arr es => .lb :: itemsA true es ++ [.rb]
  | .arrow n e =>
    .arrow n :: (if isComma e || startsBrace e then parens (wrap (precA e) 1 (bodyA e))
                 else wrap (precA e) 1 (bodyA e))
/-- Call arguments and array elements, separated by commas.
Models the loops at emit-js/src/expr_js.rs:311-320 and 477-489. -/
def itemsA : Bool → Items → List Tok
  | _, .nil => []
  | first, .hole rest => (if first then [] else [.comma]) ++ itemsA false rest
  | first, .item sp e rest =>
    (if first then [] else [.comma]) ++ (if sp then [.dots] else []) ++
      wrap (precA e) 1 (bodyA e) ++ itemsA false rest
end

/-- `emit_expr`, emit-js/src/expr_js.rs:35-43. -/
def emitA (e : Expr) : List Tok := wrap (precA e) 1 (bodyA e)

/-- `ExprKind::Unary | ExprKind::Update`, emit-js/src/hir.rs:2013-2016; `await`, `yield` and `new`
are other kinds there. -/
def isUnaryH : Expr → Bool
  | .unary .await _ => false
  | .unary .yield _ => false
  | .unary .yieldStar _ => false
  | .unary .new _ => false
  | .unary _ _ => true
  | .post _ _ => true
  | _ => false

/-- Models `arrow_concise_body_needs_parens`, emit-js/src/hir.rs:2381-2390. -/
def arrowParensH : Expr → Bool
  | .obj _ => true
  | e => isComma e

mutual
/-- The printer for lowered expressions, without outer parentheses.
Models `emit_expr_no_parens`, emit-js/src/hir.rs:1556-1690, with `emit_call` (1692-1725),
`emit_member` (1727-1753), `emit_array_literal` (1770-1794), `emit_unary` and `emit_update`
(1954-2000), `emit_binary` (2002-2035) and the arrow function printer (905-930).
A lowered constructor call is written here as `new` applied to a call. -/
def bodyH : Expr → List Tok
  | .id n => [.id n]
  | .num n => [.num n]
  | .obj n => [.obj n]
  | .prim n => [.prim n]
  | .tpl n => [.tpl n]
  | .regex n => [.regex n]
  | .func n => [.func n]
  | .unary .new (.call opt f as) =>
    .new :: (if startsOpt f then parens (wrap (precH f) 18 (bodyH f))
             else wrap (precH f) 18 (bodyH f)) ++ callTok opt :: itemsH true as ++ [.rp]
  | .unary .new e =>
    .new :: (if startsOpt e then parens (wrap (precH e) 18 (bodyH e))
             else wrap (precH e) 18 (bodyH e)) ++ [.lp, .rp]
  | .unary op e => unTok op ++ wrap (precH e) (prec (.un op)) (bodyH e)
  | .post op e => wrap (precH e) (prec (.post op)) (bodyH e) ++ [postTok op]
  | .binary b l r =>
    (if b = .pow && isUnaryH l then parens (bodyH l) else wrap (precH l) (leftMin b) (bodyH l)) ++
      binTok b :: wrap (precH r) (rightMin b) (bodyH r)
  | .cond c t f =>
    wrap (precH c) (prec .conditional + 1) (bodyH c) ++ .question ::
      wrap (precH t) (prec .conditional) (bodyH t) ++ .colon ::
      wrap (precH f) (prec .conditional) (bodyH f)
  | .call opt f as => wrap (precH f) 18 (bodyH f) ++ callTok opt :: itemsH true as ++ [.rp]
  | .member opt o p => wrap (precH o) 18 (bodyH o) ++ [dotTok opt, .id p]
  | .index opt o i =>
    wrap (precH o) 18 (bodyH o) ++ brackTok opt :: wrap (precH i) 0 (bodyH i) ++ [.rb]
  | .tagged f n => wrap (precH f) 18 (bodyH f) ++ [.tpl n]
  | .arr es => .lb :: itemsH true es ++ [.rb]
  | .arrow n e =>
    .arrow n :: (if arrowParensH e then parens (wrap (precH e) 0 (bodyH e))
                 else wrap (precH e) 0 (bodyH e))
/-- Call arguments and array elements: emit-js/src/hir.rs:1713-1721 and 1777-1792. -/
def itemsH : Bool → Items → List Tok
  | _, .nil => []
  | first, .hole rest => (if first then [] else [.comma]) ++ itemsH false rest
  | first, .item sp e rest =>
    (if first then [] else [.comma]) ++ (if sp then [.dots] else []) ++
      wrap (precH e) 0 (bodyH e) ++ itemsH false rest
end

/-- An expression printed by the lowered-form printer where any precedence will do,
emit-js/src/hir.rs:1487-1504 with `Prec::LOWEST`. -/
def emitH (e : Expr) : List Tok := wrap (precH e) 0 (bodyH e)

/-- The unary operators the third printer knows: `emit_unary_operator`,
emit-js/src/js_expr.rs:390-416. -/
def unaryJ : UnOp → Bool
  | .new | .yield | .yieldStar => false
  | _ => true

mutual
/-- The expressions the third printer does not report as unsupported.
Models the error cases of `emit_expr_no_parens` and `expr_precedence`,
emit-js/src/js_expr.rs:48-90 and 298-321, and of `emit_unary_operator`, 390-416. Arrow functions with
block bodies or type annotations are not modelled. -/
def supportedJ : Expr → Bool
  | .id _ | .num _ | .prim _ | .regex _ => true
  | .obj _ | .tpl _ | .func _ | .tagged _ _ | .arr _ => false
  | .unary op e => unaryJ op && supportedJ e
  | .post _ e => supportedJ e
  | .binary _ l r => supportedJ l && supportedJ r
  | .cond c t f => supportedJ c && supportedJ t && supportedJ f
  | .call _ f as => supportedJ f && supportedItemsJ as
  | .member _ o _ => supportedJ o
  | .index _ o i => supportedJ o && supportedJ i
  | .arrow _ e => supportedJ e
/-- The arguments the third printer does not report as unsupported. -/
def supportedItemsJ : Items → Bool
  | .nil => true
  | .hole _ => false
  | .item _ e rest => supportedJ e && supportedItemsJ rest
end

mutual
/-- The printer of the `emit_js_*` helpers, without outer parentheses, on supported expressions.
Models `emit_expr_no_parens`, emit-js/src/js_expr.rs:48-90, with `emit_arrow_func` (92-130),
`emit_binary` (132-150), `emit_call` (152-169), `emit_member` (171-188), `emit_computed_member`
(190-199), `emit_cond` (206-214), `emit_unary` (216-229) and `emit_unary_postfix` (231-235).
The test for `**` below a unary operator at 219-227 is left out: `**` binds less tightly than every
such operator, so that the parentheses are written anyway. Unsupported expressions print nothing
here. -/
def bodyJ : Expr → List Tok
  | .id n => [.id n]
  | .num n => [.num n]
  | .prim n => [.prim n]
  | .regex n => [.regex n]
  | .obj _ | .tpl _ | .func _ | .tagged _ _ | .arr _ => []
  | .unary op e => unTok op ++ wrap (precA e) (prec (.un op)) (bodyJ e)
  | .post op e => wrap (precA e) (prec (.post op)) (bodyJ e) ++ [postTok op]
  | .binary b l r =>
    (if b = .pow && isUnaryA l then parens (bodyJ l)
     else wrap (precA l) (prec (.bin b)) (bodyJ l)) ++
      binTok b :: wrap (precA r) (nextMin (.bin b)) (bodyJ r)
  | .cond c t f =>
    wrap (precA c) (prec .conditional + 1) (bodyJ c) ++ .question ::
      wrap (precA t) (prec (.bin .assign)) (bodyJ t) ++ .colon ::
      wrap (precA f) (prec (.bin .assign)) (bodyJ f)
  | .call opt f as => wrap (precA f) 18 (bodyJ f) ++ callTok opt :: itemsJ true as ++ [.rp]
  | .member opt o p => wrap (precA o) 18 (bodyJ o) ++ [dotTok opt, .id p]
  | .index opt o i =>
    wrap (precA o) 18 (bodyJ o) ++ brackTok opt :: wrap (precA i) 1 (bodyJ i) ++ [.rb]
  | .arrow n e => .arrow n :: wrap (precA e) 1 (bodyJ e)
/-- Call arguments: emit-js/src/js_expr.rs:158-166. -/
def itemsJ : Bool → Items → List Tok
  | _, .nil => []
  | first, .hole rest => itemsJ first rest
  | first, .item sp e rest =>
    (if first then [] else [.comma]) ++ (if sp then [.dots] else []) ++
      wrap (precA e) 1 (bodyJ e) ++ itemsJ false rest
end

/-- `emit_js_expr`, emit-js/src/js_expr.rs:270-273. Simplification: the code reports an unsupported
expression when it gets to it, having written what stands in front of it. -/
def emitJ (e : Expr) : Option (List Tok) :=
  if supportedJ e then some (wrap (precA e) 1 (bodyJ e)) else none

end Verif.Emit
