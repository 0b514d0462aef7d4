import Verif.Emit.Spec
import Verif.Emit.Stmt

/-!
# What it means that a program is printed faithfully

`sameJ` and `sameA` say when two programs are the same up to what the two statement printers are free
to change. `okProgJ` and `okListA` are the programs for which faithful printing is proved; every clause
that leaves something out has a witness in `StmtTheorems.lean`.
-/

namespace Verif.Emit

/-- A body in braces: the printer of `js_stmt.rs` writes every body as a block. -/
def inBraces : Stmt → Stmt
  | .block b => .block b
  | .empty => .block .nil
  | s => .block (.cons s .nil)

/-- A `for` body that is one block is that block: the printer of `stmt.rs` writes `{ … }` for both. -/
def oneBlock : Stmts → Stmts
  | .cons (.block b) .nil => oneBlock b
  | b => b

mutual
/-- A statement up to empty statements in lists, and
* with `braces`, up to the braces around the bodies of `if`, `while` and `do`,
* without, up to one more pair of braces around the body of `for`. -/
def norm (braces : Bool) : Stmt → Stmt
  | .block b => .block (normL braces b)
  | .ifs c t => .ifs c (if braces then inBraces (norm braces t) else norm braces t)
  | .ifElse c t f =>
    .ifElse c (if braces then inBraces (norm braces t) else norm braces t)
      (if braces then inBraces (norm braces f) else norm braces f)
  | .while_ c b => .while_ c (if braces then inBraces (norm braces b) else norm braces b)
  | .doWhile b c => .doWhile (if braces then inBraces (norm braces b) else norm braces b) c
  | .forT i c p b => .forT i c p (if braces then normL braces b else oneBlock (normL braces b))
  | .label n s => .label n (norm braces s)
  | s => s
/-- A statement list up to empty statements. -/
def normL (braces : Bool) : Stmts → Stmts
  | .nil => .nil
  | .cons s rest => if isEmpty s then normL braces rest else .cons (norm braces s) (normL braces rest)
end

/-- The same program up to empty statements in lists and braces around bodies. -/
def sameJ (p q : Stmts) : Prop := normL true p = normL true q

/-- The same program up to empty statements in lists and a block as the body of `for`. -/
def sameA (p q : Stmts) : Prop := normL false p = normL false q

/-! ## The printer that may leave out semicolons -/

/-- The leftmost part of an expression, parentheses disregarded. -/
def leftmost : Expr → Expr
  | .post _ e => leftmost e
  | .binary _ l _ => leftmost l
  | .cond c _ _ => leftmost c
  | .call _ f _ => leftmost f
  | .member _ o _ => leftmost o
  | .index _ o _ => leftmost o
  | .tagged f _ => leftmost f
  | e => e

/-- Starts with `+`, `-`, a regular expression or an arrow function: the printer separates it from
what stands before it with a semicolon. -/
def guarded (e : Expr) : Bool :=
  match leftmost e with
  | .regex _ | .arrow _ _ => true
  | .unary .plus _ | .unary .neg _ | .unary .incr _ | .unary .decr _ => true
  | _ => false

/-- Starts with `typeof`. -/
def typeofStart (e : Expr) : Bool :=
  match leftmost e with
  | .unary .typeof _ => true
  | _ => false

/-- Some part on the left edge of the expression needs parentheses. -/
def parenStart : Expr → Bool
  | .post _ e => precA e < 17 || parenStart e
  | .binary b l _ => precA l < prec (.bin b) || (b = .pow && isUnaryA l) || parenStart l
  | .cond c _ _ => precA c < 5 || parenStart c
  | .call _ f _ => precA f < 18 || parenStart f
  | .member _ o _ => precA o < 18 || parenStart o
  | .index _ o _ => precA o < 18 || parenStart o
  | _ => false

/-- May stand on the line after an expression that has no semicolon: it does not start with a
parenthesis, which would make a call of it, nor with `typeof`. -/
def okAfter : Stmt → Bool
  | .expr e => guarded e || (!parenStart e && !typeofStart e)
  | _ => true

/-- Ends with an expression. -/
def endsOpen : Stmt → Bool
  | .expr _ => true
  | .var_ _ ds =>
    match ds.getLast? with
    | some (_, some _) => true
    | _ => false
  | _ => false

/-- A `break` without label. -/
def isBareBreak : Stmt → Bool
  | .brk none => true
  | _ => false

/-- Declarators with printable initialisers that are no comma expressions. -/
def okDecls (ok : Expr → Bool) (ds : List Declarator) : Bool :=
  ds != [] && ds.all fun d => d.2.all fun e => ok e && !isComma e

/-- A printable first part of a `for` header: no `in` is written in it. -/
def okInit (ok : Expr → Bool) (pr : Expr → List Tok) (i : ForInit) : Bool :=
  (match i with
   | .none => true
   | .expr e => ok e
   | .decl _ ds => okDecls ok ds) && !(initTok pr i).contains .in_

mutual
/-- Statements the printer with optional semicolons is proved to print faithfully: besides the
expressions outside `okJ` it is comma expressions as initialisers and `in` in the first part of `for`
that are left out, and in lists statements that must not follow an open expression. -/
def okSJ (st : Style) : Stmt → Bool
  | .empty => true
  | .block b => okLJ st false b
  | .brk _ => true
  | .expr e => okJ e
  | .ifs c t => okJ c && okSJ st t
  | .ifElse c t f => okJ c && okSJ st t && okSJ st f
  | .while_ c b => okJ c && okSJ st b
  | .forT i c p b => okInit okJ exprJ i && c.all okJ && p.all okJ && okLJ st false b
  | .var_ _ ds => okDecls okJ ds
  | _ => false
/-- Statement lists; the flag says whether the statement in front of it ends with an expression. -/
def okLJ (st : Style) (op : Bool) : Stmts → Bool
  | .nil => true
  | .cons s rest =>
    if isEmpty s then okLJ st op rest else
    okSJ st s && (st = .semicolons || !op || okAfter s) && okLJ st (endsOpen s) rest
end

/-- No `break` without label, which has no place there, among the statements of a program. -/
def noBareBreak : Stmts → Bool
  | .nil => true
  | .cons s rest => !isBareBreak s && noBareBreak rest

/-- Programs printed faithfully. -/
def okProgJ (st : Style) (ss : Stmts) : Bool := okLJ st false ss && noBareBreak ss

/-! ## The printer that writes all semicolons -/

/-- The parser leaves the semicolon the printer writes at the end. -/
def leavesSemi : Stmt → Bool
  | .brk (some _) | .cont (some _) | .debugger | .doWhile _ _ => true
  | .label _ s => leavesSemi s
  | .while_ _ b => leavesSemi b
  | .ifs _ t => leavesSemi t
  | .ifElse _ _ f => leavesSemi f
  | .forT _ _ _ (.cons s .nil) => leavesSemi s
  | _ => false

/-- Ends with an `if` without `else`. -/
def endsIf : Stmt → Bool
  | .ifs _ t => !leavesSemi t
  | .ifElse _ _ f => endsIf f
  | .label _ s => endsIf s
  | .while_ _ b => endsIf b
  | .forT _ _ _ (.cons s .nil) => endsIf s
  | _ => false

/-- Starts with an object literal, a function or a class without being one. -/
def startsBlock (e : Expr) : Bool :=
  match leftmost e with
  | .obj _ | .func _ => e != leftmost e
  | _ => false

mutual
/-- Statements the printer of `stmt.rs` is proved to print faithfully. Left out, besides expressions
outside `okA`: expression statements that start with an object literal, a function or a class; the
then-branch of an `if` with `else` that ends with an `if` without, or with `break L`, `continue L`,
`debugger` or `do`; comma expressions as initialisers; `in` in the first part of `for`. -/
def okSA : Stmt → Bool
  | .block b => okLA b
  | .expr e => okA e && !startsBlock e
  | .ifs c t => okA c && okSA t
  | .ifElse c t f => okA c && okSA t && okSA f && !leavesSemi t && !endsIf t
  | .while_ c b => okA c && okSA b
  | .doWhile b c => okA c && okSA b
  | .forT i c p b => okInit okA emitA i && c.all okA && p.all okA && okLA b
  | .var_ _ ds => okDecls okA ds
  | .ret e => e.all okA
  | .throw e => okA e
  | .label _ s => okSA s
  | .empty | .brk _ | .cont _ | .debugger | .decl _ => true
/-- Statement lists. -/
def okLA : Stmts → Bool
  | .nil => true
  | .cons s rest => okSA s && okLA rest
end

end Verif.Emit
