import Verif.Numeric.Model

/-!
# Numeric literals: ECMA-262, section 12.9.3

The grammar of numeric literals and their mathematical values (MV), for source text that is not
strict mode code; which literals strict mode code forbids is `Legacy`.  Written from the standard;
of the model only the classes of digits and the value of a digit are used.
-/

namespace Verif.Numeric

/-- Digits with numeric separators: a separator has a digit on both sides
(`DecimalDigits[+Sep]`, `BinaryDigits[+Sep]`, ...). -/
inductive Digits (d : Char → Bool) : List Char → Prop where
  | one {c} : d c = true → Digits d [c]
  | more {s c} : Digits d s → d c = true → Digits d (s ++ [c])
  | sep {s c} : Digits d s → d c = true → Digits d (s ++ ['_', c])

/-- The digits without the separators. -/
def bare (s : List Char) : List Char := s.filter (· ≠ '_')

/-- MV of digits in a base: each digit counts for its value times a power of the base.
The digits are given from the last to the first. -/
def mvRev (radix : Nat) : List Char → Nat
  | [] => 0
  | c :: cs => digitOf c + radix * mvRev radix cs

/-- MV of digits in a base; separators do not count. -/
def mv (radix : Nat) (s : List Char) : Nat := mvRev radix (bare s).reverse

/-- MV of the digits after the point: `0.d₁d₂…`. -/
def mvFraction (s : List Char) : ℚ := (mv 10 s : ℚ) / 10 ^ (bare s).length

/-- `DecimalIntegerLiteral`: `0`, a literal that starts with another digit, or
`NonOctalDecimalIntegerLiteral`. -/
inductive DecimalInteger : List Char → Prop where
  | zero : DecimalInteger ['0']
  | nonZero {c s} : c ≠ '0' → Digits isDec (c :: s) → DecimalInteger (c :: s)
  | nonOctal {s} : (∀ c ∈ s, isDec c = true) → (∃ c ∈ s, c = '8' ∨ c = '9') →
      DecimalInteger ('0' :: s)

/-- `ExponentPart` or nothing, with its value. -/
inductive Exponent : List Char → ℤ → Prop where
  | none : Exponent [] 0
  | unsigned {m s} : (m = 'e' ∨ m = 'E') → Digits isDec s → Exponent (m :: s) (mv 10 s)
  | plus {m s} : (m = 'e' ∨ m = 'E') → Digits isDec s → Exponent (m :: '+' :: s) (mv 10 s)
  | minus {m s} : (m = 'e' ∨ m = 'E') → Digits isDec s → Exponent (m :: '-' :: s) (-(mv 10 s : ℤ))

/-- `NumericLiteral` that denotes a Number, and its MV. -/
inductive NumLit : List Char → ℚ → Prop where
  | binary {m s} : (m = 'b' ∨ m = 'B') → Digits isBin s → NumLit ('0' :: m :: s) (mv 2 s)
  | octal {m s} : (m = 'o' ∨ m = 'O') → Digits isOct s → NumLit ('0' :: m :: s) (mv 8 s)
  | hex {m s} : (m = 'x' ∨ m = 'X') → Digits isHex s → NumLit ('0' :: m :: s) (mv 16 s)
  | legacyOctal {s} : s ≠ [] → (∀ c ∈ s, isOct c = true) → NumLit ('0' :: s) (mv 8 s)
  | integer {i e x} : DecimalInteger i → Exponent e x → NumLit (i ++ e) (mv 10 i * 10 ^ x)
  | point {i f e x} : DecimalInteger i → (f = [] ∨ Digits isDec f) → Exponent e x →
      NumLit (i ++ '.' :: f ++ e) ((mv 10 i + mvFraction f) * 10 ^ x)
  | fraction {f e x} : Digits isDec f → Exponent e x →
      NumLit ('.' :: f ++ e) (mvFraction f * 10 ^ x)

/-- `NumericLiteral` that denotes a BigInt, and its MV. -/
inductive BigLit : List Char → Nat → Prop where
  | zero : BigLit ['0', 'n'] 0
  | decimal {c s} : c ≠ '0' → Digits isDec (c :: s) → BigLit (c :: s ++ ['n']) (mv 10 (c :: s))
  | binary {m s} : (m = 'b' ∨ m = 'B') → Digits isBin s → BigLit ('0' :: m :: s ++ ['n']) (mv 2 s)
  | octal {m s} : (m = 'o' ∨ m = 'O') → Digits isOct s → BigLit ('0' :: m :: s ++ ['n']) (mv 8 s)
  | hex {m s} : (m = 'x' ∨ m = 'X') → Digits isHex s → BigLit ('0' :: m :: s ++ ['n']) (mv 16 s)

/-- `LegacyOctalIntegerLiteral` or a literal that starts with `NonOctalDecimalIntegerLiteral`:
a zero and another digit at the start.  Strict mode code must not contain them. -/
def Legacy (s : List Char) : Prop := ∃ c t, s = '0' :: c :: t ∧ isDec c = true

/-- `LegacyOctalIntegerLiteral`. -/
def LegacyOctal (s : List Char) : Prop := ∃ t, s = '0' :: t ∧ t ≠ [] ∧ ∀ c ∈ t, isOct c = true

/-- The text of a numeric literal. -/
def IsLiteral (s : List Char) : Prop := (∃ v, NumLit s v) ∨ ∃ n, BigLit s n

/-- `p` is the longest numeric literal at the start of the text. -/
def Longest (p src : List Char) : Prop :=
  p <+: src ∧ ∀ q, IsLiteral q → q <+: src → q.length ≤ p.length

/-- A character that must not follow a numeric literal: ECMA-262 forbids `IdentifierStart` and
`DecimalDigit` there.  Of the former these are the ones in ASCII but `$`. -/
def Glued (c : Char) : Prop := isDec c = true ∨ ('a' ≤ c ∧ c ≤ 'z') ∨ ('A' ≤ c ∧ c ≤ 'Z') ∨ c = '_'

/-- Decimal digits as they are normally written: no zero at the start, except for zero itself. -/
def Decimal (ds : List Char) (n : Nat) : Prop :=
  ds ≠ [] ∧ (∀ c ∈ ds, isDec c = true) ∧ (1 < ds.length → ds.head? ≠ some '0') ∧ mv 10 ds = n

end Verif.Numeric
