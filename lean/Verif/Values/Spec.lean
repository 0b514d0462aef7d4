import Verif.Values.Model
/-!
# BigInts, strings and positions: specification
-/

namespace Verif.Values

/-! ## BigInt -/

/-- The integer a BigInt stands for. -/
def Big.val (b : Big) : Int := if b.negative then -(b.magnitude : Int) else b.magnitude

/-- A well-formed BigInt: the magnitude fits and there is no negative zero. -/
def Big.WF (b : Big) : Prop := b.magnitude < 2 ^ 128 ∧ (b.negative = true → b.magnitude ≠ 0)

/-- A nonempty string of ASCII digits. -/
def IsDigits (ds : List Nat) : Prop := ds ≠ [] ∧ ∀ c ∈ ds, 48 ≤ c ∧ c ≤ 57

/-- The number a digit string denotes. -/
def decimalValue (ds : List Nat) : Nat := ds.foldl (fun n c => n * 10 + (c - 48)) 0

/-- The exact integer an expression denotes, if all its literals are digit strings. -/
def BigExpr.exact : BigExpr → Int
  | .lit ds => decimalValue ds
  | .neg e => -e.exact
  | .add a b => a.exact + b.exact
  | .mul a b => a.exact * b.exact
  | .inc e => e.exact + 1
  | .dec e => e.exact - 1

/-- All literals of the expression are digit strings (what the parser produces). -/
def BigExpr.LitsOK : BigExpr → Prop
  | .lit ds => IsDigits ds
  | .neg e => e.LitsOK
  | .add a b => a.LitsOK ∧ b.LitsOK
  | .mul a b => a.LitsOK ∧ b.LitsOK
  | .inc e => e.LitsOK
  | .dec e => e.LitsOK

/-- The value of every subexpression is below `2^128` in absolute value. -/
def BigExpr.Fits : BigExpr → Prop
  | .lit ds => decimalValue ds < 2 ^ 128
  | .neg e => e.Fits
  | .add a b => a.Fits ∧ b.Fits ∧ (a.exact + b.exact).natAbs < 2 ^ 128
  | .mul a b => a.Fits ∧ b.Fits ∧ (a.exact * b.exact).natAbs < 2 ^ 128
  | .inc e => e.Fits ∧ (e.exact + 1).natAbs < 2 ^ 128
  | .dec e => e.Fits ∧ (e.exact - 1).natAbs < 2 ^ 128

/-! ## Strings -/

/-- Lexicographic order of code unit sequences: they agree up to some position where the first ends, or
where it has the smaller unit. -/
def LexLt (a b : List Nat) : Prop :=
  ∃ i, a.take i = b.take i ∧
    ((a.length = i ∧ i < b.length) ∨ ∃ x y, a[i]? = some x ∧ b[i]? = some y ∧ x < y)

/-- A Unicode scalar value (what a Rust `char` holds). -/
def IsScalar (c : Nat) : Prop := c < 0xD800 ∨ (0xE000 ≤ c ∧ c ≤ 0x10FFFF)

/-! ## Positions -/

/-- `pre` is the part of `text` before the position that `offset` denotes: the longest prefix of at
most `offset` bytes. -/
def Before (text : List Nat) (offset : Nat) (pre : List Nat) : Prop :=
  ∃ rest, text = pre ++ rest ∧ bytes pre ≤ offset ∧
    (rest = [] ∨ ∃ c cs, rest = c :: cs ∧ offset < bytes pre + utf8Len c)

/-- The line of the position: one more than the newlines before it. -/
def lineOf (pre : List Nat) : Nat := 1 + pre.count 10

/-- The column of the position: one more than the characters after the last newline before it. -/
def colOf (pre : List Nat) : Nat := 1 + (pre.reverse.takeWhile (· ≠ 10)).length

end Verif.Values
