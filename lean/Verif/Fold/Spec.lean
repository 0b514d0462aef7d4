import Verif.Fold.Model
/-!
# What constant folding must not change

ECMA-262 is the evaluator `Verif.Expr.Ecma` with `full = true`, over numbers that are doubles.  `Standard` says what the
host's arithmetic must be.  `Safe` leaves out the places where the code is wrong; it is used in the theorems called
`_partial`, and the theorems called `_violated` show what happens there.
-/

namespace Verif.Fold
open Verif.Expr (Expr Args Elems Parts Members BinOp UnOp ArithOp ascii Str Num Val Host M)
open Verif.Eval (Const F64 Lib)

/-- Arithmetic and conversions are those of ECMA-262 (6.1.6.1, 7.1).  `L.digits` are the shortest digits of a number,
and `L.pow` is `f64::powf`, which is `**` except where the standard wants NaN. -/
structure Standard (L : Lib) (N : Num F64) : Prop where
  nan : N.nan = .nan
  zero : N.zero = .fin false 0
  one : N.one = Eval.one
  cmp : ∀ a b, N.cmp a b = a.cmp b
  add : ∀ a b, N.add a b = a.add b
  sub : ∀ a b, N.sub a b = a.sub b
  mul : ∀ a b, N.mul a b = a.mul b
  div : ∀ a b, N.div a b = a.div b
  rem : ∀ a b, Eval.Remainder a b (N.rem a b)
  ofStr : ∀ s, Eval.StringToNumber s (N.ofStr s)
  toStr : ∀ a, Eval.NumToString L a (N.toStr a)
  bigToStr : ∀ i, N.bigToStr i = Eval.intText i
  bitAnd : ∀ a b, Eval.NumOp .bitAnd a b (N.arith .bitAnd a b)
  bitOr : ∀ a b, Eval.NumOp .bitOr a b (N.arith .bitOr a b)
  bitXor : ∀ a b, Eval.NumOp .bitXor a b (N.arith .bitXor a b)
  shl : ∀ a b, Eval.NumOp .shl a b (N.arith .shl a b)
  shr : ∀ a b, Eval.NumOp .shr a b (N.arith .shr a b)
  ushr : ∀ a b, Eval.NumOp .ushr a b (N.arith .ushr a b)
  pow : ∀ a b, ¬ Eval.ExpNan a b → N.arith .pow a b = L.pow a b
  powNan : ∀ a b, Eval.ExpNan a b → N.arith .pow a b = .nan

/-- The shortest digits of a number other than zero: decimal digits, the first and the last not `0`. -/
def Shortest (L : Lib) : Prop :=
  ∀ m, m ≠ 0 → (∀ d ∈ (L.digits (.fin false m)).1, 48 ≤ d ∧ d ≤ 57) ∧
    (∃ d ds, (L.digits (.fin false m)).1 = d :: ds ∧ d ≠ 48) ∧ ∃ ds d, (L.digits (.fin false m)).1 = ds ++ [d] ∧ d ≠ 48

/-- What evaluating an expression gives: a value, a reference to a name, or one to a property. -/
inductive Kind where
  | value
  | name
  | prop
deriving DecidableEq

section
variable {P C : Type}

/-- The kind of an expression; parentheses do not matter (13.2.9). -/
def kind : Expr F64 P C → Kind
  | .id _ => .name
  | .member _ _ _ | .index _ _ _ => .prop
  | .paren x => kind x
  | _ => .value

/-- May the expression be the front part of an optional chain that ends early?  Parentheses end the chain. -/
def short : Expr F64 P C → Bool
  | .member opt x _ => opt || short x
  | .index opt x _ => opt || short x
  | .call opt f _ => opt || short f
  | _ => false

/-- Is the node a call? -/
def isCall : Expr F64 P C → Bool
  | .call _ _ _ => true
  | _ => false

/-- Is the node a name, not in parentheses? -/
def isName : Expr F64 P C → Bool
  | .id _ => true
  | _ => false

variable (L : Lib)

/-- The node stays an anonymous function, or stays something else. -/
def KeepsName (x : Expr F64 P C) : Prop := Expr.Ecma.anonymous (fold L false .value x) = Expr.Ecma.anonymous x

mutual
/-- The expressions for which folding is right.  Folding puts an operand in the place of an operator, and the place may
treat the operand as more than a value:
* the base of a property or a call: as a part of an optional chain,
* a function that is called: as a property whose base becomes `this`,
* the operand of `typeof` or `delete`: as a reference,
* the operand of `new`: as a call,
* the right side of `=` and the value of a property: as a function that gets a name.

Targets of assignments are names and properties: 13.15.1. -/
def Safe : Expr F64 P C → Prop
  | .paren x => Safe x
  | .binary _ x y => Safe x ∧ Safe y
  | .arith op x y => Safe x ∧ Safe y ∧
      (op = .pow → ∀ a b, constVal (fold L false .value x) = some (.num a) →
        constVal (fold L false .value y) = some (.num b) → ¬ Eval.ExpNan a b)
  | .comma x y => Safe x ∧ Safe y
  | .nullish x y => Safe x ∧ Safe y
  | .and x y => Safe x ∧ Safe y
  | .or x y => Safe x ∧ Safe y
  | .assign x y => Safe x ∧ Safe y ∧ kind x ≠ .value ∧ (isName x = true → KeepsName L y)
  | .addAssign x y => Safe x ∧ Safe y ∧ kind x ≠ .value
  | .assignPat _ y => Safe y
  | .unary _ x => Safe x
  | .typeof_ x => Safe x ∧ (kind (fold L false .value x) = .name → kind x = .name)
  | .bitNot x => Safe x
  | .delete_ x => Safe x ∧ kind (fold L false .value x) = kind x
  | .new_ (.call _ f as) => Safe f ∧ SafeArgs as
  | .new_ x => Safe x ∧ isCall (fold L false .value x) = false
  | .update true _ x => Safe x ∧ kind x ≠ .value
  | .update false _ _ => True
  | .cond x y z => Safe x ∧ Safe y ∧ Safe z
  | .call _ f as => Safe f ∧ SafeArgs as ∧ (short (fold L false .value f) = true → short f = true) ∧
      (kind (fold L false .value f) = .prop → kind f = .prop)
  | .index _ x y => Safe x ∧ Safe y ∧ (short (fold L false .value x) = true → short x = true)
  | .member _ x _ => Safe x ∧ (short (fold L false .value x) = true → short x = true)
  | .arr es => SafeElems es
  | .object ms => SafeMembers ms
  | .template ps => SafeParts ps
  | .this_ | .newTarget | .null | .bool _ | .num _ | .big _ | .str _ | .func _ _ | .id _ | .other => True

def SafeArgs : Args F64 P C → Prop
  | .nil => True
  | .cons x as => Safe x ∧ SafeArgs as
  | .spread x as => Safe x ∧ SafeArgs as

def SafeElems : Elems F64 P C → Prop
  | .nil => True
  | .hole es => SafeElems es
  | .cons x es => Safe x ∧ SafeElems es
  | .spread x es => Safe x ∧ SafeElems es

def SafeParts : Parts F64 P C → Prop
  | .nil => True
  | .text _ ps => SafeParts ps
  | .subst x ps => Safe x ∧ SafeParts ps

/-- `__proto__: x` gives no name: 13.2.5.5. -/
def SafeMembers : Members F64 P C → Prop
  | .nil => True
  | .prop k x ms => Safe x ∧ SafeMembers ms ∧ (k ≠ ascii "__proto__" → KeepsName L x)
  | .computed k x ms => Safe k ∧ Safe x ∧ SafeMembers ms ∧ KeepsName L x
  | .method _ _ _ ms => SafeMembers ms
  | .computedMethod _ k _ ms => Safe k ∧ SafeMembers ms
  | .shorthand _ ms => SafeMembers ms
  | .spread x ms => Safe x ∧ SafeMembers ms
end

/-! ## A condition on the text alone -/

/-- Is the expression one of `&&`, `||`, `??` and `?:`, perhaps in parentheses? -/
def choice : Expr F64 P C → Bool
  | .paren x => choice x
  | .and _ _ | .or _ _ | .nullish _ _ | .cond _ _ _ => true
  | _ => false

mutual
/-- None of the places listed at `Safe` holds a choice, and there is no `**`. -/
def Clear : Expr F64 P C → Prop
  | .paren x => Clear x
  | .binary _ x y => Clear x ∧ Clear y
  | .arith op x y => Clear x ∧ Clear y ∧ op ≠ .pow
  | .comma x y => Clear x ∧ Clear y
  | .nullish x y => Clear x ∧ Clear y
  | .and x y => Clear x ∧ Clear y
  | .or x y => Clear x ∧ Clear y
  | .assign x y => Clear x ∧ Clear y ∧ kind x ≠ .value ∧ (isName x = true → choice y = false)
  | .addAssign x y => Clear x ∧ Clear y ∧ kind x ≠ .value
  | .assignPat _ y => Clear y
  | .unary _ x => Clear x
  | .typeof_ x => Clear x ∧ choice x = false
  | .bitNot x => Clear x
  | .delete_ x => Clear x ∧ choice x = false
  | .new_ x => Clear x ∧ choice x = false
  | .update true _ x => Clear x ∧ kind x ≠ .value
  | .update false _ _ => True
  | .cond x y z => Clear x ∧ Clear y ∧ Clear z
  | .call _ f as => Clear f ∧ ClearArgs as ∧ choice f = false
  | .index _ x y => Clear x ∧ Clear y ∧ choice x = false
  | .member _ x _ => Clear x ∧ choice x = false
  | .arr es => ClearElems es
  | .object ms => ClearMembers ms
  | .template ps => ClearParts ps
  | .this_ | .newTarget | .null | .bool _ | .num _ | .big _ | .str _ | .func _ _ | .id _ | .other => True

def ClearArgs : Args F64 P C → Prop
  | .nil => True
  | .cons x as => Clear x ∧ ClearArgs as
  | .spread x as => Clear x ∧ ClearArgs as

def ClearElems : Elems F64 P C → Prop
  | .nil => True
  | .hole es => ClearElems es
  | .cons x es => Clear x ∧ ClearElems es
  | .spread x es => Clear x ∧ ClearElems es

def ClearParts : Parts F64 P C → Prop
  | .nil => True
  | .text _ ps => ClearParts ps
  | .subst x ps => Clear x ∧ ClearParts ps

def ClearMembers : Members F64 P C → Prop
  | .nil => True
  | .prop _ x ms => Clear x ∧ ClearMembers ms ∧ choice x = false
  | .computed k x ms => Clear k ∧ Clear x ∧ ClearMembers ms ∧ choice x = false
  | .method _ _ _ ms => ClearMembers ms
  | .computedMethod _ k _ ms => Clear k ∧ ClearMembers ms
  | .shorthand _ ms => ClearMembers ms
  | .spread x ms => Clear x ∧ ClearMembers ms
end

end

end Verif.Fold
