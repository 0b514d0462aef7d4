import Verif.Il.Model
/-!
# The programs the translator reads

The part of HIR that `optimize-js/src/il/s2i` translates: expressions and statements, with names already
resolved (`classify_symbol`: il/s2i/mod.rs 101–115).  The arenas of HIR, where nodes refer to each other by
number, are trees here.

Left out: destructuring patterns, `for … in/of`, `with`, `try`, declarations (the translator ignores them),
`super`, `yield`, JSX, object literals with methods or accessors.
-/

namespace Verif.Lower

open Verif.Il

/-- A resolved name, `VarType`: il/s2i/mod.rs 27–32.  Symbols are numbers, names lists of code points. -/
inductive VarType where
  | local (s : Nat)
  | foreign (s : Nat)
  | unknown (name : List Nat)
  | builtin (name : List Nat)
deriving DecidableEq, Repr

/-- The arithmetic members of `BinaryOp` and `AssignOp`: hir-js/src/hir.rs 852–863, 883–897. -/
inductive ArithOp where
  | add | sub | mul | div | rem | exp | shl | shr | ushr | bitOr | bitAnd | bitXor
deriving DecidableEq, Repr

/-- The comparisons in `BinaryOp`: hir.rs 867–874. -/
inductive CmpOp where
  | eq | ne | strictEq | strictNe | lt | le | gt | ge
deriving DecidableEq, Repr

/-- The short-circuiting members of `BinaryOp` and `AssignOp`: hir.rs 864–866, 894–896. -/
inductive LogOp where
  | and | or | nullish
deriving DecidableEq, Repr

/-- `AssignOp`: hir.rs 881–898. -/
inductive AssignOp where
  | plain
  | arith (op : ArithOp)
  | log (op : LogOp)
deriving DecidableEq, Repr

/-- `UnaryOp` without `Delete` and `Await`, which become calls: hir.rs 833–842. -/
inductive UnaryOp where
  | not | bitNot | plus | minus | typeof | void
deriving DecidableEq, Repr

mutual
/-- `ExprKind`.  A property key that is not computed is a string literal.  `internal` stands for everything
that is translated to a call of a builtin of the optimizer with the operands, in order, as arguments, markers being
`builtin` and names of properties `lit`: regular expressions (il/s2i/expr.rs 118–128), `in` and `instanceof`
(570–587), `delete o[k]` (887–901), arrays (1043–1072), objects (1073–1137), templates (1138–1154), tagged
templates (1155–1172), `import(…)` (1173–1191) and `await` (1192–1203).  `this`, `import.meta` and `new.target`
are `builtin` (1206–1208). -/
inductive Expr where
  | lit (c : Const)
  | builtin (name : List Nat)
  | fn (id : Nat)
  | ident (x : VarType)
  | unary (op : UnaryOp) (e : Expr)
  | arith (op : ArithOp) (l r : Expr)
  | cmp (op : CmpOp) (l r : Expr)
  | log (op : LogOp) (l r : Expr)
  | comma (l r : Expr)
  | cond (c t f : Expr)
  | update (inc pre : Bool) (e : Expr)
  | assign (op : AssignOp) (x : VarType) (e : Expr)
  | assignMember (op : AssignOp) (o k e : Expr)
  | member (o k : Expr) (optional : Bool)
  | call (c : Expr) (as : Args) (optional : Bool)
  | new (c : Expr) (as : Args)
  | internal (name : List Nat) (as : Args)

/-- Arguments, each with or without `...`. -/
inductive Args where
  | nil
  | cons (spread : Bool) (e : Expr) (rest : Args)
end

/-- `VarDeclKind`, as far as it matters. -/
inductive DeclKind where
  | var | let_ | const
deriving DecidableEq, Repr

mutual
/-- `StmtKind`.  A declaration with several declarators is several declarations; every declarator binds a name.
The initialiser of a `for` is a statement (`empty` if there is none). -/
inductive Stmt where
  | expr (e : Expr)
  | empty
  | decl (kind : DeclKind) (x : VarType) (init : Option Expr)
  | block (ss : Stmts)
  | ifThen (c : Expr) (t : Stmt)
  | ifElse (c : Expr) (t f : Stmt)
  | while_ (c : Expr) (b : Stmt)
  | doWhile (b : Stmt) (c : Expr)
  | for_ (init : Stmt) (c post : Option Expr) (b : Stmt)
  | switch (d : Expr) (cs : Cases)
  | brk (l : Option Nat)
  | cont (l : Option Nat)
  | labeled (l : Nat) (b : Stmt)
  | ret (e : Option Expr)
  | throw (e : Expr)

inductive Stmts where
  | nil
  | cons (s : Stmt) (rest : Stmts)

/-- The clauses of a `switch`; `default` has no test. -/
inductive Cases where
  | nil
  | cons (test : Option Expr) (body : Stmts) (rest : Cases)
end

/-- The symbol a name stands for. -/
def VarType.symbol : VarType → Option Nat
  | .local s => some s
  | .foreign s => some s
  | _ => none

mutual
/-- The names declared with `var`: il/s2i/stmt.rs 117–143. -/
def Stmt.varNames : Stmt → List VarType
  | .decl .var x _ => if x.symbol.isSome then [x] else []
  | .block ss => ss.varNames
  | .ifThen _ t => t.varNames
  | .ifElse _ t f => t.varNames ++ f.varNames
  | .while_ _ b => b.varNames
  | .doWhile b _ => b.varNames
  | .for_ i _ _ b => i.varNames ++ b.varNames
  | .switch _ cs => cs.varNames
  | .labeled _ b => b.varNames
  | _ => []
def Stmts.varNames : Stmts → List VarType
  | .nil => []
  | .cons s ss => s.varNames ++ ss.varNames
def Cases.varNames : Cases → List VarType
  | .nil => []
  | .cons _ b cs => b.varNames ++ cs.varNames
end

/-- A function or the top level of a program; `params` are the symbols of the parameters. -/
structure Body where
  isFn : Bool
  params : List Nat
  stmts : Stmts

end Verif.Lower
