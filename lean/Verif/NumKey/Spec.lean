import Verif.NumKey.Model

/-!
# What numbers are

The Number values of ECMA-262 (6.1.6.1), and when two of them are the same.
-/

namespace Verif.NumKey

/-- A Number value: all NaNs are one, and the zeros are two. Sizes are in units of `2 ^ -1074`. -/
inductive Number where
  | nan
  | inf (neg : Bool)
  | fin (neg : Bool) (units : Nat)
deriving DecidableEq

/-- The number that the bits of a double denote (IEEE 754, 3.4). -/
def number (x : F64) : Number :=
  let neg := decide (2 ^ 63 ≤ x.bits)
  let e := x.bits / 2 ^ 52 % 2048
  let f := x.bits % 2 ^ 52
  if e = 2047 then (if f = 0 then .inf neg else .nan)
  else if e = 0 then .fin neg f
  else .fin neg ((2 ^ 52 + f) * 2 ^ (e - 1))

/-- Number::sameValueZero, ECMA-262 6.1.6.1.15. -/
def SameValueZero (a b : Number) : Prop := a = b ∨ ∃ s t, a = .fin s 0 ∧ b = .fin t 0

/-- `+0` or `-0`. -/
def IsZero (a : Number) : Prop := ∃ s, a = .fin s 0

/-- The numeric order of numbers that are not NaN. -/
def Less : Number → Number → Prop
  | .inf true, .inf false => True
  | .inf true, .fin _ _ => True
  | .fin _ _, .inf false => True
  | .fin s m, .fin t n => (if s then -(m : Int) else m) < (if t then -(n : Int) else n)
  | _, _ => False

/-- The same value in every program: Number::sameValue for numbers. -/
inductive SameConst : Const → Const → Prop
  | num {a b : F64} : number a = number b → SameConst (.num a) (.num b)
  | refl (c : Const) : SameConst c c

inductive SameArg : Arg → Arg → Prop
  | const {a b : Const} : SameConst a b → SameArg (.const a) (.const b)
  | refl (a : Arg) : SameArg a a

/-- The same operation on the same values. -/
inductive SameVal : Val → Val → Prop
  | bin {l l' r r' : Arg} (o : Nat) : SameArg l l' → SameArg r r' → SameVal (.bin l o r) (.bin l' o r')
  | un {a a' : Arg} (o : Nat) : SameArg a a' → SameVal (.un o a) (.un o a')

/-- The constant zero is not among the operands. -/
def NoZero : Val → Prop
  | .bin l _ r => (∀ x, l = .const (.num x) → ¬ IsZero (number x)) ∧
      ∀ x, r = .const (.num x) → ¬ IsZero (number x)
  | .un _ a => ∀ x, a = .const (.num x) → ¬ IsZero (number x)

end Verif.NumKey
