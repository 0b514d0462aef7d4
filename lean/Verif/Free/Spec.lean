import Verif.Free.Model
/-!
# What it means to have no side effects

Evaluating the expression gives a value, it does not throw, and only creates objects.  `Since w₀ w` says that `w` is `w₀`
with new objects, and `New w₀ w o` that `o` is one of them; `Allocates` says that the host creates objects and fills in
the properties of object literals in this sense.
-/

namespace Verif.Free
open Verif.Expr (Expr Args Elems Parts Members BinOp UnOp ArithOp Str Num Val Host M)

section
variable {F E R I P C W : Type}

/-- A step from `w` to `w'` that only creates objects, or changes those created since `w₀`. -/
def Next (Since : W → W → Prop) (New : W → W → Nat → Prop) (w₀ w w' : W) : Prop :=
  Since w₀ w' ∧ ∀ o, New w₀ w o → New w₀ w' o

structure Allocates (H : Host F E R I P C W) (Since : W → W → Prop) (New : W → W → Nat → Prop) : Prop where
  refl : ∀ w, Since w w
  array : ∀ w₀ w es, Since w₀ w → ∃ o w', H.array es w = (.ok (.obj o), w') ∧ Next Since New w₀ w w'
  object : ∀ w₀ w, Since w₀ w → ∃ o w', H.object w = (.ok o, w') ∧ Next Since New w₀ w w' ∧ New w₀ w' o
  closure : ∀ w₀ w c f name, Since w₀ w → ∃ o w', H.closure c f name w = (.ok (.obj o), w') ∧ Next Since New w₀ w w'
  define : ∀ w₀ w o k v, Since w₀ w → New w₀ w o → ∃ w', H.define o k v w = (.ok true, w') ∧ Next Since New w₀ w w'
  setProto : ∀ w₀ w o v, Since w₀ w → New w₀ w o → ∃ w', H.setProto o v w = (.ok (), w') ∧ Next Since New w₀ w w'
  method : ∀ w₀ w c d o k f, Since w₀ w → New w₀ w o →
    ∃ w', H.method c d o k f w = (.ok (), w') ∧ Next Since New w₀ w w'

/-- BigInts have no largest value: `**` and the shifts of BigInts give a result if the right operand is not negative
(6.1.6.2.3, 6.1.6.2.9), and so do the bitwise operators. -/
def Unbounded (N : Num F) : Prop :=
  ∀ op i j, op ≠ .ushr → (op = .pow ∨ op = .shl ∨ op = .shr → 0 ≤ j) → ∃ k, N.bigArith op i j = some k

/-- May the value be an object? -/
def object : Expr F P C → Bool
  | .null | .bool _ | .num _ | .str _ | .big _ | .template _ => false
  | .unary _ _ | .bitNot _ | .binary _ _ _ | .arith _ _ _ | .typeof_ _ | .delete_ _ | .update _ _ _ => false
  | .paren x => object x
  | .and _ y => object y
  | .or x y | .nullish x y => object x || object y
  | .cond _ y z => object y || object z
  | _ => true

mutual
/-- No operator converts an object to a primitive value. -/
def Primitives : Expr F P C → Prop
  | .unary op x => Primitives x ∧ (op = .plus ∨ op = .neg → object x = false)
  | .bitNot x => Primitives x ∧ object x = false
  | .binary op x y => Primitives x ∧ Primitives y ∧ (op ≠ .strictEq → op ≠ .strictNe → object x = false ∧ object y = false)
  | .arith _ x y => Primitives x ∧ Primitives y ∧ object x = false ∧ object y = false
  | .and x y | .or x y | .nullish x y => Primitives x ∧ Primitives y
  | .cond x y z => Primitives x ∧ Primitives y ∧ Primitives z
  | .arr es => PrimitivesE es
  | .object ms => PrimitivesM ms
  | .template ps => PrimitivesP ps
  | .paren x => Primitives x
  | _ => True

def PrimitivesE : Elems F P C → Prop
  | .nil => True
  | .hole es => PrimitivesE es
  | .cons x es => Primitives x ∧ PrimitivesE es
  | .spread x es => Primitives x ∧ PrimitivesE es

def PrimitivesP : Parts F P C → Prop
  | .nil => True
  | .text _ ps => PrimitivesP ps
  | .subst x ps => Primitives x ∧ object x = false ∧ PrimitivesP ps

def PrimitivesM : Members F P C → Prop
  | .nil => True
  | .prop _ x ms => Primitives x ∧ PrimitivesM ms
  | .computed _ x ms => Primitives x ∧ PrimitivesM ms
  | .method _ _ _ ms => PrimitivesM ms
  | .computedMethod _ _ _ ms => PrimitivesM ms
  | .shorthand _ ms => PrimitivesM ms
  | .spread _ ms => PrimitivesM ms
end

end

end Verif.Free
