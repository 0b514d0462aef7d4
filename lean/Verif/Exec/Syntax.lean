/-!
# Statements

The statements of `parse-js/src/ast/stmt/mod.rs` that `vm-js/src/exec.rs` executes.  Expressions `X`, patterns `P`
and the declarations `D` a block makes are left open: their meaning is a parameter (`Host`).
-/

namespace Verif.Exec

/-- The kinds of bindings: `BindingKind`, vm-js/src/destructure.rs 24–29. -/
inductive Kind where
  | var_
  | let_
  | const_
  | assign

/-- One declarator of `var`, `let` or `const`: a pattern and an initializer. -/
structure Declarator (X P : Type) where
  pat : P
  init : Option X

/-- The first part of `for (;;)`: `ForTripleStmtInit`, ast/stmt/mod.rs.  `let` and `const` are not modelled there. -/
inductive Init (X P : Type) where
  | none
  | expr (x : X)
  | vars (ds : List (Declarator X P))

/-- The left side of `for`-`in` and `for`-`of`: `ForInOfLhs`. -/
inductive Lhs (P : Type) where
  | assign (p : P)
  | var_ (p : P)
  | let_ (p : P)
  | const_ (p : P)

mutual
/-- `Stmt`: ast/stmt/mod.rs.  `D` of a block, of the cases of a `switch` and of the body of a `for` stands for its
lexical declarations.  A body of `for` that is no block is a list of one statement, as in the parser. -/
inductive Stmt (X P D : Type) where
  | empty
  | expr (x : X)
  | decl (k : Kind) (ds : List (Declarator X P))
  | func
  | block (d : D) (ss : Stmts X P D)
  | ifThen (x : X) (s : Stmt X P D)
  | ifElse (x : X) (s t : Stmt X P D)
  | throw (x : X)
  | try_ (d : D) (ss : Stmts X P D) (h : Handler X P D) (f : Final X P D)
  | ret (x : Option X)
  | while_ (x : X) (s : Stmt X P D)
  | doWhile (s : Stmt X P D) (x : X)
  | for_ (i : Init X P) (cond post : Option X) (d : D) (ss : Stmts X P D)
  | forIn (l : Lhs P) (x : X) (d : D) (ss : Stmts X P D)
  | forOf (l : Lhs P) (x : X) (d : D) (ss : Stmts X P D)
  | switch (x : X) (d : D) (cs : Cases X P D)
  | switchDefault (x : X) (d : D) (a : Cases X P D) (b : Stmts X P D) (c : Cases X P D)
  | label (l : Nat) (s : Stmt X P D)
  | break_ (l : Option Nat)
  | continue_ (l : Option Nat)

/-- A list of statements. -/
inductive Stmts (X P D : Type) where
  | nil
  | cons (s : Stmt X P D) (ss : Stmts X P D)

/-- `CatchBlock`.  A clause with a parameter is modelled if its body declares nothing: the interpreter puts the
parameter and the declarations of the body in one environment (exec.rs 2065–2092), ECMA-262 in two. -/
inductive Handler (X P D : Type) where
  | none
  | bare (d : D) (ss : Stmts X P D)
  | param (p : P) (ss : Stmts X P D)

/-- The `finally` block. -/
inductive Final (X P D : Type) where
  | none
  | some (d : D) (ss : Stmts X P D)

/-- The `case` clauses on one side of `default`. -/
inductive Cases (X P D : Type) where
  | nil
  | cons (x : X) (ss : Stmts X P D) (cs : Cases X P D)
end

/-- A list of statements from a list. -/
def ofList {X P D : Type} : List (Stmt X P D) → Stmts X P D
  | [] => .nil
  | s :: ss => .cons s (ofList ss)

/-- A completion: `Completion`, exec.rs 46–54, without stack traces. -/
inductive Completion (V : Type) where
  | normal (v : Option V)
  | throw (v : V)
  | ret (v : V)
  | brk (l : Option Nat) (v : Option V)
  | cont (l : Option Nat) (v : Option V)
deriving DecidableEq

/-- What evaluation of an expression, or any step that may fail, comes to: a value, a thrown value, or an error that
no program can catch (out of fuel, out of memory, not implemented). -/
inductive Out (V A : Type) where
  | ok (a : A)
  | throw (v : V)
  | fatal
deriving DecidableEq

/-- The meaning of everything that is no statement.  `E` are environments, `W` is the rest of the world: the heap
with the contents of the environments, the output, and so on.

`scope d e w` is a new environment in `e` with the declarations `d` of a block (exec.rs 1693–1708, ECMA-262
BlockDeclarationInstantiation); nothing if that fails.  A block without declarations may be given `e` itself.
`bind k p v` binds the names of a pattern in the current environment (`bind_pattern`, destructure.rs 31–90);
`bindNew k p v` makes a new environment with the names of the pattern and binds them there.  `exprTdz p x` is the
value of `x` in an environment in which the names of `p` are not initialised.  `iter`, `step` and `close` are
GetIterator, IteratorStepValue and IteratorClose without what depends on the completion: the last one throws if the
`return` method throws or its result is no object.  `object` and `keys` are ToObject and the keys a `for`-`in` loop
visits; both sides of the theorems visit the keys that are there at the start. -/
structure Host (X P D V E I W : Type) where
  undef : V
  nullish : V → Bool
  truthy : V → W → Bool
  equal : V → V → W → Bool
  expr : X → E → W → Out V V × W
  exprTdz : P → X → E → W → Out V V × W
  scope : D → E → W → Option (E × W)
  bind : Kind → P → V → E → W → Out V Unit × W
  bindNew : Kind → P → V → E → W → Out V E × W
  object : V → W → Out V V × W
  keys : V → W → Out V (List V) × W
  iter : V → W → Out V I × W
  step : I → W → Out V (Option V × I) × W
  close : I → W → Out V Unit × W

end Verif.Exec
