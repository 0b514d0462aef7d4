import Verif.Exec.Syntax
/-!
# Expressions

Values, the expressions of `parse-js/src/ast/expr/mod.rs` that `vm-js/src/exec.rs` evaluates, and what their meaning
depends on (`Host`): the objects, the environments, the functions and the arithmetic.
-/

namespace Verif.Expr
open Verif.Exec (Out)

/-- Strings: UTF-16 code units.  The heap of the VM has handles to strings that never change (C19). -/
abbrev Str := List Nat

/-- The code units of a text in ASCII. -/
def ascii (s : String) : Str := s.toList.map Char.toNat

/-- `Value`: vm-js/src/value.rs.  `F` are the numbers; symbols and objects are handles.  BigInts are integers: C18 says
the operations of the VM are exact or fail. -/
inductive Val (F : Type) where
  | undef
  | null
  | bool (b : Bool)
  | num (a : F)
  | big (i : Int)
  | str (s : Str)
  | sym (s : Nat)
  | obj (o : Nat)
deriving DecidableEq

/-- `PropertyKey`: vm-js/src/property.rs. -/
inductive Key where
  | str (s : Str)
  | sym (s : Nat)
deriving DecidableEq

/-- Operators on numbers that the interpreter does not have: `**`, `<<`, `>>`, `>>>`, `&`, `|`, `^`. -/
inductive ArithOp where
  | pow
  | shl
  | shr
  | ushr
  | bitAnd
  | bitOr
  | bitXor
deriving DecidableEq

/-- `f64`: the arithmetic and the conversions, which the model and ECMA-262 share.  `cmp` is `partial_cmp`: nothing if
one side is NaN, and the two zeros are equal.  `cmpBig i a` compares an integer with a number.  `bigArith` gives nothing
where ECMA-262 throws a RangeError. -/
structure Num (F : Type) where
  nan : F
  zero : F
  one : F
  cmp : F → F → Option Ordering
  cmp_swap : ∀ a b, cmp b a = (cmp a b).map Ordering.swap
  cmp_zero : ∀ a, cmp a zero = none ↔ cmp a a = none
  add : F → F → F
  sub : F → F → F
  mul : F → F → F
  div : F → F → F
  rem : F → F → F
  neg : F → F
  sub_eq : ∀ a b, sub a b = add a (neg b)
  ofStr : Str → F
  toStr : F → Str
  cmpBig : Int → F → Option Ordering
  bigOfStr : Str → Option Int
  bigToStr : Int → Str
  arith : ArithOp → F → F → F
  bitNot : F → F
  bigArith : ArithOp → Int → Int → Option Int

/-- Operators on two values. -/
inductive BinOp where
  | strictEq
  | strictNe
  | eq
  | ne
  | in_
  | instanceof
  | add
  | mul
  | sub
  | div
  | rem
  | lt
  | le
  | gt
  | ge
deriving DecidableEq

/-- Operators on one value. -/
inductive UnOp where
  | not
  | plus
  | neg
  | void
deriving DecidableEq

/-- Methods, getters and setters of object literals. -/
inductive MethodKind where
  | method
  | getter
  | setter
deriving DecidableEq

mutual
/-- `Expr`: ast/expr/mod.rs.  `paren` is the mark `ParenthesizedExpr` on a node, which the evaluator ignores.  `C` is
the code of a function, `P` an array or object pattern.  `func anon c` is a function expression, an arrow function or
a class; `anon` says that it has no name of its own.  `arith`, `bitNot` and `comma` are expressions the evaluator
rejects; `other` is every other expression it rejects, and also tagged templates, which it evaluates but which are not
modelled. -/
inductive Expr (F P C : Type) where
  | this_
  | newTarget
  | null
  | bool (b : Bool)
  | num (a : F)
  | big (i : Nat)
  | str (s : Str)
  | template (ps : Parts F P C)
  | arr (es : Elems F P C)
  | object (ms : Members F P C)
  | func (anon : Bool) (c : C)
  | id (x : Str)
  | paren (x : Expr F P C)
  | member (opt : Bool) (x : Expr F P C) (name : Str)
  | index (opt : Bool) (x y : Expr F P C)
  | call (opt : Bool) (f : Expr F P C) (as : Args F P C)
  | new_ (x : Expr F P C)
  | unary (op : UnOp) (x : Expr F P C)
  | typeof_ (x : Expr F P C)
  | delete_ (x : Expr F P C)
  | update (pre inc : Bool) (x : Expr F P C)
  | assign (x y : Expr F P C)
  | assignPat (p : P) (y : Expr F P C)
  | addAssign (x y : Expr F P C)
  | and (x y : Expr F P C)
  | or (x y : Expr F P C)
  | nullish (x y : Expr F P C)
  | binary (op : BinOp) (x y : Expr F P C)
  | cond (x y z : Expr F P C)
  | arith (op : ArithOp) (x y : Expr F P C)
  | bitNot (x : Expr F P C)
  | comma (x y : Expr F P C)
  | other

/-- The arguments of a call; `...x` is `spread`. -/
inductive Args (F P C : Type) where
  | nil
  | cons (x : Expr F P C) (as : Args F P C)
  | spread (x : Expr F P C) (as : Args F P C)

/-- The elements of an array literal. -/
inductive Elems (F P C : Type) where
  | nil
  | hole (es : Elems F P C)
  | cons (x : Expr F P C) (es : Elems F P C)
  | spread (x : Expr F P C) (es : Elems F P C)

/-- The parts of a template. -/
inductive Parts (F P C : Type) where
  | nil
  | text (s : Str) (ps : Parts F P C)
  | subst (x : Expr F P C) (ps : Parts F P C)

/-- The members of an object literal.  The key of `prop` and `method` is the string the literal stands for. -/
inductive Members (F P C : Type) where
  | nil
  | prop (k : Str) (x : Expr F P C) (ms : Members F P C)
  | computed (k x : Expr F P C) (ms : Members F P C)
  | method (d : MethodKind) (k : Str) (c : C) (ms : Members F P C)
  | computedMethod (d : MethodKind) (k : Expr F P C) (c : C) (ms : Members F P C)
  | shorthand (x : Str) (ms : Members F P C)
  | spread (x : Expr F P C) (ms : Members F P C)
end

/-- Native errors. -/
inductive ErrorKind where
  | type
  | reference
  | range
deriving DecidableEq

/-- Where the code runs: the fields of `Evaluator` and `RuntimeEnv`, exec.rs 171–179, 771–780. -/
structure Ctx (F E : Type) where
  env : E
  this : Val F
  newTarget : Val F
  strict : Bool

/-- The rest of the world.  `W` is the state: the heap, the environments, the output.

`resolve e x w` is the binding a name has in an environment, an unresolvable one if there is none; `read`, `write` and
`remove` are GetValue, PutValue (in strict code or not) and DeleteBinding for it.  `get`, `set`, `has`, `delete`,
`define` (CreateDataProperty), `ownKeys` and `own` (is there an own property, and is it enumerable) are operations of
objects; `box` is ToObject for primitive values.  `call` and `construct` are those of functions, which
`callable` and `constructor` tell from other objects; `bound` is the target of a bound function.  `protos` is the list
of the prototypes of an object, finite by C08.  `array` makes an array from its elements and holes: nobody can see the
array before, so that its creation is put at the end.  `closure` makes a function, with a name if ECMA-262 gives it
one from the context.  `iter` and `step` are GetIterator and IteratorStepValue. -/
structure Host (F E R I P C W : Type) where
  num : Num F
  fits : Int → Bool
  error : ErrorKind → W → Val F × W
  toPrimitive : Nat
  hasInstance : Nat
  resolve : E → Str → W → R
  unresolvable : R → Bool
  read : R → Str → W → Out (Val F) (Val F) × W
  write : R → Str → Bool → Val F → W → Out (Val F) Unit × W
  remove : R → Str → W → Out (Val F) Bool × W
  box : Val F → W → Out (Val F) Nat × W
  get : Nat → Key → Val F → W → Out (Val F) (Val F) × W
  set : Nat → Key → Val F → Val F → W → Out (Val F) Bool × W
  has : Nat → Key → W → Out (Val F) Bool × W
  delete : Nat → Key → W → Out (Val F) Bool × W
  define : Nat → Key → Val F → W → Out (Val F) Bool × W
  setProto : Nat → Val F → W → Out (Val F) Unit × W
  ownKeys : Nat → W → Out (Val F) (List Key) × W
  own : Nat → Key → W → Out (Val F) (Option Bool) × W
  callable : Nat → W → Bool
  constructor : Nat → W → Bool
  bound : Nat → W → Option Nat
  protos : Nat → W → List Nat
  call : Nat → Val F → List (Val F) → W → Out (Val F) (Val F) × W
  construct : Nat → List (Val F) → W → Out (Val F) (Val F) × W
  array : List (Option (Val F)) → W → Out (Val F) (Val F) × W
  object : W → Out (Val F) Nat × W
  closure : Ctx F E → C → Option Str → W → Out (Val F) (Val F) × W
  method : Ctx F E → MethodKind → Nat → Key → C → W → Out (Val F) Unit × W
  bindPat : Ctx F E → P → Val F → W → Out (Val F) Unit × W
  iter : Val F → W → Out (Val F) I × W
  step : I → W → Out (Val F) (Option (Val F) × I) × W

/-- A step: a result and the new state; nothing if the fuel for loops over iterators is used up. -/
def M (F W A : Type) := W → Option (Out (Val F) A × W)

namespace M
variable {F W A B : Type}

def pure (a : A) : M F W A := fun w => some (.ok a, w)

/-- The operator `?` of Rust, and of ECMA-262. -/
def bind (m : M F W A) (f : A → M F W B) : M F W B := fun w =>
  match m w with
  | none => none
  | some (.ok a, w') => f a w'
  | some (.throw v, w') => some (.throw v, w')
  | some (.fatal, w') => some (.fatal, w')

/-- An error that no program can catch: `VmError::Unimplemented` and the like. -/
def fatal : M F W A := fun w => some (.fatal, w)

/-- An operation of the host. -/
def run (f : W → Out (Val F) A × W) : M F W A := fun w => some (f w)

/-- A question about the state. -/
def ask (f : W → A) : M F W A := fun w => some (.ok (f w), w)

instance : Monad (M F W) where
  pure := pure
  bind := bind
end M

section
variable {F E R I P C W : Type} (H : Host F E R I P C W)

/-- Throw a new error object. -/
def raise {A : Type} (k : ErrorKind) : M F W A := fun w => some (.throw (H.error k w).1, (H.error k w).2)

end

end Verif.Expr
