import Mathlib.Data.Rat.Defs
import Mathlib.Algebra.Field.Rat

/-!
# Numeric literals: the lexer's tokens and their values

Models the part of `parse-js` that turns digits in a source text into a number: the four lexing
functions for numbers in `parse-js/src/lex/mod.rs`, `JsNumber::from_literal` in
`parse-js/src/num.rs`, and the literal parsers in `parse-js/src/parse/expr/lit.rs`.

A source text is a list of characters.  A number is the exact rational that `fast_float` is asked
for; its rounding to a double is not modelled (`fast_float` rounds to nearest, as ECMA-262 does).
-/

namespace Verif.Numeric

/-- `DIGIT`, parse-js/src/char.rs:91-95. -/
def isDec (c : Char) : Bool := '0' ≤ c && c ≤ '9'

/-- `DIGIT_BIN`, parse-js/src/char.rs:97-101. -/
def isBin (c : Char) : Bool := c == '0' || c == '1'

/-- `DIGIT_OCT`, parse-js/src/char.rs:111-115. -/
def isOct (c : Char) : Bool := '0' ≤ c && c ≤ '7'

/-- `DIGIT_HEX`, parse-js/src/char.rs:103-109. -/
def isHex (c : Char) : Bool := isDec c || ('a' ≤ c && c ≤ 'f') || ('A' ≤ c && c ≤ 'F')

/-- The value of a digit: `char::to_digit` for the characters above
(used by `BigUint::parse_bytes` in parse-js/src/num.rs:121 and at
parse-js/src/parse/expr/lit.rs:78). -/
def digitOf (c : Char) : Nat :=
  if isDec c then c.toNat - 48 else if 'a' ≤ c then c.toNat - 87 else c.toNat - 55

/-- What a token turned out to be; the three results of the lexing functions
(`TT::LiteralNumber`, `TT::LiteralBigInt`, `TT::Invalid`). -/
inductive Kind where
  | number | bigint | invalid
  deriving DecidableEq, Repr

/-- The state of a scan of digits: was there a digit, is it valid, the text taken, the text left. -/
structure Scan where
  digits : Bool
  ok : Bool
  text : List Char
  rest : List Char
  deriving DecidableEq, Repr

/-- The loop of `consume_digits_with_separators`, parse-js/src/lex/mod.rs:692-725. -/
def scanFrom (d : Char → Bool) : (consumed prevSep valid : Bool) → List Char → Scan
  | consumed, prevSep, valid, [] => ⟨consumed, valid && !prevSep, [], []⟩
  | consumed, prevSep, valid, c :: cs =>
    if c == '_' then
      let r := scanFrom d consumed true
        (valid && !(prevSep || !consumed || !(cs.head?.any d))) cs
      { r with text := c :: r.text }
    else if d c then
      let r := scanFrom d true false valid cs
      { r with text := c :: r.text }
    else ⟨consumed, valid && !prevSep, [], c :: cs⟩

/-- `consume_digits_with_separators`, parse-js/src/lex/mod.rs:692-725. -/
def scan (d : Char → Bool) (s : List Char) : Scan := scanFrom d false false true s

/-- `is_legacy_octal` in `lex_bigint_or_number`, parse-js/src/lex/mod.rs:744-750. -/
def lexLegacyOctal (integer : List Char) : Bool :=
  integer.head? == some '0' && decide (1 < integer.length)
    && (integer.filter (· != '_')).all isOct

/-- The fractional part in `lex_bigint_or_number`, parse-js/src/lex/mod.rs:765-785: the text
taken, the text left, and whether it is valid. -/
def lexFraction (hasInteger legacy : Bool) (s : List Char) : List Char × List Char × Bool :=
  match s with
  | '.' :: cs =>
    if legacy then
      if cs.head?.any isDec then
        let r := scan isDec cs
        ('.' :: r.text, r.rest, false)
      else ([], s, true)
    else
      let r := scan isDec cs
      ('.' :: r.text, r.rest, r.ok && (hasInteger || r.digits))
  | _ => ([], s, true)

/-- The exponent in `lex_bigint_or_number`, parse-js/src/lex/mod.rs:788-795. -/
def lexExponent (s : List Char) : List Char × List Char × Bool :=
  match s with
  | c :: cs =>
    if c == 'e' || c == 'E' then
      match cs with
      | g :: ds =>
        if g == '+' || g == '-' then
          let r := scan isDec ds
          (c :: g :: r.text, r.rest, r.ok && r.digits)
        else
          let r := scan isDec cs
          (c :: r.text, r.rest, r.ok && r.digits)
      | [] =>
        let r := scan isDec cs
        (c :: r.text, r.rest, r.ok && r.digits)
    else ([], s, true)
  | [] => ([], s, true)

/-- The integer part in `lex_bigint_or_number`, parse-js/src/lex/mod.rs:727-742. -/
def lexInteger (s : List Char) : Scan :=
  if s.head? != some '.' then
    let r := scan isDec s
    { r with ok := r.ok && r.digits }
  else ⟨false, true, [], s⟩

/-- `lex_bigint_or_number`, parse-js/src/lex/mod.rs:727-801: kind, text of the token, text left. -/
def lexDecimal (s : List Char) : Kind × List Char × List Char :=
  let i := lexInteger s
  if i.rest.head? == some 'n' && s.head? != some '.' then
    let bad := decide (1 < i.text.length) && s.head? == some '0'
    (if i.ok && !bad then .bigint else .invalid, i.text ++ ['n'], i.rest.tail)
  else
    let f := lexFraction i.digits (i.digits && lexLegacyOctal i.text) i.rest
    let e := lexExponent f.2.1
    (if i.ok && f.2.2 && e.2.2 then .number else .invalid, i.text ++ f.1 ++ e.1, e.2.1)

/-- The optional `n` at the end of the three functions below, e.g.
parse-js/src/lex/mod.rs:814. -/
def lexSuffix (s : List Char) : Bool × List Char × List Char :=
  match s with
  | 'n' :: cs => (true, ['n'], cs)
  | _ => (false, [], s)

/-- `lex_binary_bigint_or_number`, `lex_oct_bigint_or_number`,
parse-js/src/lex/mod.rs:803-825 and 842-861: digits of the base, then any decimal digits, which
make the token invalid.  `p` is the prefix that was matched. -/
def lexRadix (d : Char → Bool) (p s : List Char) : Kind × List Char × List Char :=
  let r := scan d s
  let x := scan isDec r.rest
  let n := lexSuffix x.rest
  (if r.ok && r.digits && (x.ok && x.text.isEmpty) then
      (if n.1 then .bigint else .number)
    else .invalid,
   p ++ r.text ++ x.text ++ n.2.1, n.2.2)

/-- `lex_hex_bigint_or_number`, parse-js/src/lex/mod.rs:827-840. -/
def lexHex (p s : List Char) : Kind × List Char × List Char :=
  let r := scan isHex s
  let n := lexSuffix r.rest
  (if r.digits && r.ok then (if n.1 then .bigint else .number) else .invalid,
   p ++ r.text ++ n.2.1, n.2.2)

/-- The choice of the function by the matched pattern, parse-js/src/lex/mod.rs:445-458 and
1153-1159; the longest pattern is the one that is matched.  `none`: no number starts here. -/
def lexNumeric (s : List Char) : Option (Kind × List Char × List Char) :=
  match s with
  | [] => none
  | c :: cs =>
    if c == '0' && (cs.head? == some 'b' || cs.head? == some 'B') then
      some (lexRadix isBin (s.take 2) (s.drop 2))
    else if c == '0' && (cs.head? == some 'x' || cs.head? == some 'X') then
      some (lexHex (s.take 2) (s.drop 2))
    else if c == '0' && (cs.head? == some 'o' || cs.head? == some 'O') then
      some (lexRadix isOct (s.take 2) (s.drop 2))
    else if isDec c || (c == '.' && cs.head?.any isDec) then some (lexDecimal s)
    else none

/-! ## Values -/

/-- `strip_numeric_separators`, parse-js/src/num.rs:97-99. -/
def strip (s : List Char) : List Char := s.filter (· != '_')

/-- The value of digits in a base; what `BigUint::parse_bytes` computes,
parse-js/src/num.rs:121. -/
def natOf (radix : Nat) (s : List Char) : Nat := s.foldl (fun a c => a * radix + digitOf c) 0

/-- The digits after the point of a decimal number; see `parseDecimal`. -/
def fracOf (s : List Char) : List Char :=
  match s with
  | '.' :: cs => cs.takeWhile isDec
  | _ => []

/-- What comes after the point and the digits after it; see `parseDecimal`. -/
def afterFrac (s : List Char) : List Char :=
  match s with
  | '.' :: cs => cs.dropWhile isDec
  | _ => s

/-- The exponent of a decimal number, applied to its mantissa; see `parseDecimal`. -/
def parseExponent (m : ℚ) (s : List Char) : Option ℚ :=
  match s with
  | [] => some m
  | c :: cs =>
    if c == 'e' || c == 'E' then
      match cs with
      | '-' :: ds => if ds.isEmpty || !ds.all isDec then none else some (m / 10 ^ natOf 10 ds)
      | '+' :: ds => if ds.isEmpty || !ds.all isDec then none else some (m * 10 ^ natOf 10 ds)
      | ds => if ds.isEmpty || !ds.all isDec then none else some (m * 10 ^ natOf 10 ds)
    else none

/-- `fast_float::parse`, used at parse-js/src/num.rs:101-103, before rounding: digits, optionally a
point and digits, optionally an exponent, and nothing else.  The crate is not part of the
repository; what is written here is its documented grammar without signs, `inf` and `nan`, which
no token of the lexer starts with. -/
def parseDecimal (s : List Char) : Option ℚ :=
  let i := s.takeWhile isDec
  let f := fracOf (s.dropWhile isDec)
  if i.isEmpty && f.isEmpty then none
  else parseExponent ((natOf 10 (i ++ f) : ℚ) / 10 ^ f.length) (afterFrac (s.dropWhile isDec))

/-- `parse_decimal_literal`, parse-js/src/num.rs:105-114. -/
def parseDecimalLiteral (raw : List Char) : Option ℚ :=
  let cleaned := strip raw
  let cleaned := if cleaned.head? == some '.' then '0' :: cleaned else cleaned
  let cleaned := if cleaned.getLast? == some '.' then cleaned ++ ['0'] else cleaned
  parseDecimal cleaned

/-- Digits of `to_str_radix(10)`, parse-js/src/num.rs:122 and
parse-js/src/parse/expr/lit.rs:94; the first argument is fuel, which `n + 1` suffices for. -/
def decTextFrom : Nat → Nat → List Char
  | 0, _ => []
  | f + 1, n =>
    if n < 10 then [Char.ofNat (48 + n)]
    else decTextFrom f (n / 10) ++ [Char.ofNat (48 + n % 10)]

/-- `BigUint::to_str_radix(10)`, parse-js/src/num.rs:122. -/
def decText (n : Nat) : List Char := decTextFrom (n + 1) n

/-- `BigUint::parse_bytes`, parse-js/src/num.rs:121.  Its leading `+` is not modelled; no token
has it. -/
def parseBytes (d : Char → Bool) (radix : Nat) (s : List Char) : Option Nat :=
  if s.isEmpty || !s.all d then none else some (natOf radix s)

/-- `parse_integer_literal`, parse-js/src/num.rs:116-124. -/
def parseIntegerLiteral (d : Char → Bool) (radix : Nat) (raw : List Char) : Option ℚ :=
  let cleaned := strip raw
  if cleaned.isEmpty then none
  else (parseBytes d radix cleaned).bind fun n => parseDecimal (decText n)

/-- The end of the integer part, parse-js/src/num.rs:200-206: the first `.`, `e` or `E` after the
first character. -/
def intPart (raw : List Char) : List Char :=
  raw.take 1 ++ (raw.drop 1).takeWhile (fun c => !(c == '.' || c == 'e' || c == 'E'))

/-- `parse_number_literal`, parse-js/src/num.rs:185-247, which is `JsNumber::from_literal`
(parse-js/src/num.rs:14-16). -/
def fromLiteral (raw : List Char) : Option ℚ :=
  match raw with
  | '0' :: 'b' :: rest => parseIntegerLiteral isBin 2 rest
  | '0' :: 'B' :: rest => parseIntegerLiteral isBin 2 rest
  | '0' :: 'o' :: rest => parseIntegerLiteral isOct 8 rest
  | '0' :: 'O' :: rest => parseIntegerLiteral isOct 8 rest
  | '0' :: 'x' :: rest => parseIntegerLiteral isHex 16 rest
  | '0' :: 'X' :: rest => parseIntegerLiteral isHex 16 rest
  | _ =>
    if raw.head? == some '0' && decide (1 < raw.length) then
      let int := intPart raw
      if int.contains '_' then none
      else if !(int.drop 1).all isDec then none
      else
        let sawDigit := !(int.drop 1).isEmpty
        let sawDecimal := (int.drop 1).any (fun c => c == '8' || c == '9')
        if sawDigit then
          if int.length != raw.length then
            if !sawDecimal then none else parseDecimalLiteral raw
          else if sawDecimal then parseDecimalLiteral raw
          else parseIntegerLiteral isOct 8 raw
        else parseDecimalLiteral raw
    else parseDecimalLiteral raw

/-- `is_legacy_octal_literal`, parse-js/src/num.rs:126-147. -/
def isLegacyOctalLiteral (raw : List Char) : Bool :=
  if !(raw.head? == some '0') || decide (raw.length ≤ 1) then false
  else if raw.any (fun c => c == '.' || c == 'e' || c == 'E') then false
  else if raw.contains '_' then false
  else (raw.drop 1).all isOct

/-- The loop of `is_leading_zero_decimal_literal`, parse-js/src/num.rs:165-180. -/
def leadingZeroLoop : (digit decimal : Bool) → List Char → Bool
  | digit, decimal, [] => digit && decimal
  | digit, decimal, c :: cs =>
    if c == '.' || c == 'e' || c == 'E' then digit && decimal
    else if c == '_' then leadingZeroLoop digit decimal cs
    else if isOct c then leadingZeroLoop true decimal cs
    else if c == '8' || c == '9' then leadingZeroLoop true true cs
    else false

/-- `is_leading_zero_decimal_literal`, parse-js/src/num.rs:149-183. -/
def isLeadingZeroDecimalLiteral (raw : List Char) : Bool :=
  if !(raw.head? == some '0') || decide (raw.length ≤ 1) then false
  else match raw with
    | '0' :: 'x' :: _ => false
    | '0' :: 'X' :: _ => false
    | '0' :: 'o' :: _ => false
    | '0' :: 'O' :: _ => false
    | '0' :: 'b' :: _ => false
    | '0' :: 'B' :: _ => false
    | _ => leadingZeroLoop false false (raw.drop 1)

/-- `lit_num`, parse-js/src/parse/expr/lit.rs:784-806, for the text of a number token; `strict`
is `is_strict_ecmascript() && is_strict_mode()`. -/
def litNum (strict : Bool) (raw : List Char) : Option ℚ :=
  if strict && (isLegacyOctalLiteral raw || isLeadingZeroDecimalLiteral raw) then none
  else fromLiteral raw

/-- The loop over the digits in `normalise_literal_bigint`,
parse-js/src/parse/expr/lit.rs:66-84; `none` for a malformed text, else the digits. -/
def bigDigits (d : Char → Bool) : (prevSep sawDigit : Bool) → List Char → Option (List Char)
  | prevSep, sawDigit, [] => if prevSep || !sawDigit then none else some []
  | prevSep, sawDigit, c :: cs =>
    if c == '_' then
      if prevSep || !sawDigit then none else bigDigits d true sawDigit cs
    else if d c then (bigDigits d false true cs).map (c :: ·)
    else none

/-- The rest of `normalise_literal_bigint`, parse-js/src/parse/expr/lit.rs:86-96.  The digits are
kept as they were written; the code writes hexadecimal digits in lower case before it reads them
again. -/
def bigValue (d : Char → Bool) (radix : Nat) (digits : List Char) : Option (List Char) :=
  (bigDigits d false false digits).bind fun ds =>
    if radix == 10 && decide (1 < ds.length) && ds.head? == some '0' then none
    else (parseBytes d radix ds).map decText

/-- `normalise_literal_bigint`, parse-js/src/parse/expr/lit.rs:45-96. -/
def normaliseBigint (raw : List Char) : Option (List Char) :=
  if raw.getLast? != some 'n' then none
  else match raw.dropLast with
    | '0' :: 'b' :: ds => bigValue isBin 2 ds
    | '0' :: 'B' :: ds => bigValue isBin 2 ds
    | '0' :: 'o' :: ds => bigValue isOct 8 ds
    | '0' :: 'O' :: ds => bigValue isOct 8 ds
    | '0' :: 'x' :: ds => bigValue isHex 16 ds
    | '0' :: 'X' :: ds => bigValue isHex 16 ds
    | ds => bigValue isDec 10 ds

/-- What a source text that starts with a number is read as. -/
inductive Lit where
  | num (v : ℚ)
  | big (digits : List Char)
  deriving DecidableEq

/-- The lexer and the literal parser together (`lit_num`, `lit_bigint_val`,
parse-js/src/parse/expr/lit.rs:760-806): the literal at the start of a text and what is left of
it.  `none` is a syntax error. -/
def readNumeric (strict : Bool) (s : List Char) : Option (Lit × List Char) :=
  (lexNumeric s).bind fun t =>
    match t.1 with
    | .number => (litNum strict t.2.1).map fun v => (.num v, t.2.2)
    | .bigint => (normaliseBigint t.2.1).map fun ds => (.big ds, t.2.2)
    | .invalid => none

end Verif.Numeric
