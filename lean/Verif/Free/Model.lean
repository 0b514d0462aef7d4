import Verif.Expr.Full
/-!
# Expressions without side effects

`is_side_effect_free_expr` of `minify-js/src/opt/side_effects.rs`, on the expressions of `Verif.Expr`.  `func` stands for
functions and arrow functions here; classes, regular expressions and TypeScript are left out.  `dce.rs` removes the
initializer of an unused variable if this function says yes.
-/

namespace Verif.Free
open Verif.Expr (Expr Args Elems Parts Members BinOp UnOp ArithOp Str)

/-- `BigIntKind`: side_effects.rs 8–13. -/
inductive BigKind where
  | big
  | notBig
  | unknown
deriving DecidableEq

/-- `BigIntSign`: side_effects.rs 15–20. -/
inductive Sign where
  | negative
  | zero
  | positive
deriving DecidableEq

section
variable {F P C : Type}

/-- `expr_definitely_string`: side_effects.rs 22–33.  Parentheses are a mark in the code. -/
def isString : Expr F P C → Bool
  | .str _ | .template _ => true
  | .binary .add x y => isString x || isString y
  | .cond _ y z => isString y && isString z
  | .paren x => isString x
  | _ => false

/-- Two equal kinds, or unknown. -/
def same (a b : BigKind) : BigKind := if a = b then a else .unknown

/-- `expr_bigint_kind`: side_effects.rs 35–119. -/
def bigKind : Expr F P C → BigKind
  | .big _ => .big
  | .null | .bool _ | .num _ | .str _ | .template _ => .notBig
  | .func _ _ | .arr _ | .object _ => .notBig
  | .unary .neg x => bigKind x
  | .bitNot x => bigKind x
  | .unary .plus x => if bigKind x = .notBig then .notBig else .unknown
  | .unary .not _ | .unary .void _ => .notBig
  | .binary op x y =>
    match op with
    | .add => if isString x || isString y then .notBig else same (bigKind x) (bigKind y)
    | .sub | .mul | .div | .rem => same (bigKind x) (bigKind y)
    | .lt | .le | .gt | .ge | .eq | .ne | .strictEq | .strictNe => .notBig
    | .in_ | .instanceof => .unknown
  | .arith op x y =>
    match op with
    | .ushr => if bigKind x = .notBig ∧ bigKind y = .notBig then .notBig else .unknown
    | _ => same (bigKind x) (bigKind y)
  | .and x y | .or x y | .nullish x y => same (bigKind x) (bigKind y)
  | .cond _ y z => same (bigKind y) (bigKind z)
  | .paren x => bigKind x
  | _ => .unknown

/-- `expr_bigint_sign`: side_effects.rs 121–139. -/
def bigSign : Expr F P C → Option Sign
  | .big i => some (if i = 0 then .zero else .positive)
  | .unary .neg x => (bigSign x).map fun
    | .negative => .positive
    | .positive => .negative
    | .zero => .zero
  | .paren x => bigSign x
  | _ => none

/-- Are both operands BigInts, or none? -/
def sameKind (x y : Expr F P C) : Bool :=
  match bigKind x, bigKind y with
  | .big, .big | .notBig, .notBig => true
  | _, _ => false

/-- Is an operator on two operands without side effects harmless: side_effects.rs 168–186 and 231–232 (`+`, `-`, `*`,
`/`, `%` and comparisons). -/
def binaryFree (op : BinOp) (x y : Expr F P C) : Bool :=
  match op with
  | .add => isString x || isString y || sameKind x y
  | .sub | .mul => sameKind x y
  | .div | .rem =>
    match bigKind x, bigKind y with
    | .notBig, .notBig => true
    | .big, .big =>
      match bigSign y with
      | some .zero | none => false
      | some .negative | some .positive => true
    | _, _ => false
  | .lt | .le | .gt | .ge | .eq | .ne | .strictEq | .strictNe => true
  | .in_ | .instanceof => false

/-- The same for `**`, shifts and bitwise operators: side_effects.rs 178–230. -/
def arithFree (op : ArithOp) (x y : Expr F P C) : Bool :=
  match op with
  | .bitAnd | .bitOr | .bitXor => sameKind x y
  | .pow | .shl | .shr =>
    match bigKind x, bigKind y with
    | .notBig, .notBig => true
    | .big, .big =>
      match bigSign y with
      | some .negative | none => false
      | some .zero | some .positive => true
    | _, _ => false
  | .ushr => decide (bigKind x = .notBig ∧ bigKind y = .notBig)

mutual
/-- `is_side_effect_free_expr`: side_effects.rs 141–286. -/
def free : Expr F P C → Bool
  | .null | .bool _ | .num _ | .str _ | .big _ => true
  | .func _ _ => true
  | .unary .plus x => free x && bigKind x == .notBig
  | .unary .neg x | .unary .not x | .unary .void x | .bitNot x => free x
  | .binary op x y => free x && free y && binaryFree op x y
  | .arith op x y => free x && free y && arithFree op x y
  | .and x y | .or x y | .nullish x y => free x && free y
  | .cond x y z => free x && free y && free z
  | .arr es => freeElems es
  | .object ms => freeMembers ms
  | .template ps => freeParts ps
  | .paren x => free x
  | .this_ | .newTarget | .id _ | .member _ _ _ | .index _ _ _ | .call _ _ _ | .new_ _ | .typeof_ _ | .delete_ _
  | .update _ _ _ | .assign _ _ | .assignPat _ _ | .addAssign _ _ | .comma _ _ | .other => false

/-- side_effects.rs 241–245. -/
def freeElems : Elems F P C → Bool
  | .nil => true
  | .hole es => freeElems es
  | .cons x es => free x && freeElems es
  | .spread _ _ => false

/-- side_effects.rs 246–262. -/
def freeMembers : Members F P C → Bool
  | .nil => true
  | .prop _ x ms => free x && freeMembers ms
  | .method _ _ _ ms => freeMembers ms
  | .computed _ _ _ | .computedMethod _ _ _ _ | .shorthand _ _ | .spread _ _ => false

/-- side_effects.rs 280–283. -/
def freeParts : Parts F P C → Bool
  | .nil => true
  | .text _ ps => freeParts ps
  | .subst x ps => free x && freeParts ps
end

end

end Verif.Free
