import Verif.Escape.Model
/-!
# ECMA-262 string and template literals

The lexical grammar of string literals and templates with the values it assigns (static semantics `SV`, `TV`
and `TRV`), written as relations between source text and code units.
-/

namespace Verif.Escape

/-- `DecimalDigit`. -/
def DecimalDigit (c : Nat) : Prop := 48 ≤ c ∧ c ≤ 57

/-- `OctalDigit`. -/
def OctalDigit (c : Nat) : Prop := 48 ≤ c ∧ c ≤ 55

/-- `HexDigit`. -/
def HexDigit (c : Nat) : Prop := (48 ≤ c ∧ c ≤ 57) ∨ (97 ≤ c ∧ c ≤ 102) ∨ (65 ≤ c ∧ c ≤ 70)

/-- `MV` of a `HexDigit`. -/
def hexDigitValue (c : Nat) : Nat := if c ≤ 57 then c - 48 else if c ≤ 70 then c - 65 + 10 else c - 97 + 10

/-- `MV` of a sequence of `HexDigit`s. -/
def hexValue : Nat → Text → Nat
  | n, [] => n
  | n, c :: cs => hexValue (16 * n + hexDigitValue c) cs

/-- `LineTerminator`. -/
def LineTerminator (c : Nat) : Prop := c = 10 ∨ c = 13 ∨ c = 0x2028 ∨ c = 0x2029

/-- The values of `SingleEscapeCharacter`: `'`, `"`, `\`, `b`, `f`, `n`, `r`, `t`, `v`. -/
def singleEscapes : List (Nat × Nat) :=
  [(39, 39), (34, 34), (92, 92), (98, 8), (102, 12), (110, 10), (114, 13), (116, 9), (118, 11)]

/-- `NonEscapeCharacter`: neither a single escape character, a digit, `x`, `u` nor a line terminator. -/
def NonEscape (c : Nat) : Prop :=
  (∀ p ∈ singleEscapes, p.1 ≠ c) ∧ ¬ DecimalDigit c ∧ c ≠ 120 ∧ c ≠ 117 ∧ ¬ LineTerminator c

/-- The next character is not one of some kind. -/
def NextNot (p : Nat → Prop) (rest : Text) : Prop := ∀ c ∈ rest.head?, ¬ p c

/-- What may follow a backslash in a string literal (an `EscapeSequence` or the rest of a
`LineContinuation`), what remains after it, and its value. With `legacy`, the sequences of non-strict code
are included; without it, the grammar is that of strict code and of templates. -/
inductive EscapeSeq (legacy : Bool) : Text → Text → List Nat → Prop where
  | single {c v : Nat} {rest : Text} : (c, v) ∈ singleEscapes → EscapeSeq legacy [c] rest [v]
  | nonEscape {c : Nat} {rest : Text} : NonEscape c → EscapeSeq legacy [c] rest (utf16 c)
  | null {rest : Text} : NextNot DecimalDigit rest → EscapeSeq legacy [48] rest [0]
  | hex {a b : Nat} {rest : Text} : HexDigit a → HexDigit b →
      EscapeSeq legacy [120, a, b] rest [hexValue 0 [a, b]]
  | unicode {a b c d : Nat} {rest : Text} : HexDigit a → HexDigit b → HexDigit c → HexDigit d →
      EscapeSeq legacy [117, a, b, c, d] rest [hexValue 0 [a, b, c, d]]
  | codePoint {ds rest : Text} : ds ≠ [] → (∀ d ∈ ds, HexDigit d) → hexValue 0 ds ≤ 0x10FFFF →
      EscapeSeq legacy (117 :: 123 :: (ds ++ [125])) rest (utf16 (hexValue 0 ds))
  | lf {rest : Text} : EscapeSeq legacy [10] rest []
  | ls {rest : Text} : EscapeSeq legacy [0x2028] rest []
  | ps {rest : Text} : EscapeSeq legacy [0x2029] rest []
  | cr {rest : Text} : NextNot (· = 10) rest → EscapeSeq legacy [13] rest []
  | crlf {rest : Text} : EscapeSeq legacy [13, 10] rest []
  /- `LegacyOctalEscapeSequence` -/
  | octalZero {d : Nat} {rest : Text} : legacy = true → (d = 56 ∨ d = 57) →
      EscapeSeq legacy [48] (d :: rest) [0]
  | octal1 {a : Nat} {rest : Text} : legacy = true → OctalDigit a → a ≠ 48 → NextNot OctalDigit rest →
      EscapeSeq legacy [a] rest [a - 48]
  | octal2 {a b : Nat} {rest : Text} : legacy = true → OctalDigit a → a ≤ 51 → OctalDigit b →
      NextNot OctalDigit rest → EscapeSeq legacy [a, b] rest [8 * (a - 48) + (b - 48)]
  | octal2High {a b : Nat} {rest : Text} : legacy = true → OctalDigit a → 52 ≤ a → OctalDigit b →
      EscapeSeq legacy [a, b] rest [8 * (a - 48) + (b - 48)]
  | octal3 {a b c : Nat} {rest : Text} : legacy = true → OctalDigit a → a ≤ 51 → OctalDigit b →
      OctalDigit c → EscapeSeq legacy [a, b, c] rest [64 * (a - 48) + 8 * (b - 48) + (c - 48)]
  /- `NonOctalDecimalEscapeSequence` -/
  | nonOctal {c : Nat} {rest : Text} : legacy = true → (c = 56 ∨ c = 57) → EscapeSeq legacy [c] rest [c]

/-- The characters between the quotes of a string literal (`DoubleStringCharacters` or
`SingleStringCharacters`), the source that follows them, and their value `SV`. -/
inductive StringChars (legacy : Bool) (quote : Nat) : Text → Text → List Nat → Prop where
  | done {rest : Text} : StringChars legacy quote [] rest []
  | char {c : Nat} {cs rest : Text} {us : List Nat} : c ≠ quote → c ≠ 92 → c ≠ 10 → c ≠ 13 →
      StringChars legacy quote cs rest us → StringChars legacy quote (c :: cs) rest (utf16 c ++ us)
  | escape {e cs rest : Text} {u us : List Nat} : EscapeSeq legacy e (cs ++ rest) u →
      StringChars legacy quote cs rest us → StringChars legacy quote (92 :: (e ++ cs)) rest (u ++ us)

/-- The source begins with a string literal `token` of value `units`. -/
def StringLiteral (legacy : Bool) (token rest : Text) (units : List Nat) : Prop :=
  ∃ quote body, (quote = 34 ∨ quote = 39) ∧ token = quote :: body ++ [quote] ∧
    StringChars legacy quote body (quote :: rest) units

/-- `TemplateCharacters`, the source that follows them, and their value `TV`. -/
inductive TemplateChars : Text → Text → List Nat → Prop where
  | done {rest : Text} : TemplateChars [] rest []
  | char {c : Nat} {cs rest : Text} {us : List Nat} : c ≠ 96 → c ≠ 92 → c ≠ 36 → ¬ LineTerminator c →
      TemplateChars cs rest us → TemplateChars (c :: cs) rest (utf16 c ++ us)
  | dollar {cs rest : Text} {us : List Nat} : NextNot (· = 123) (cs ++ rest) →
      TemplateChars cs rest us → TemplateChars (36 :: cs) rest (36 :: us)
  | escape {e cs rest : Text} {u us : List Nat} : EscapeSeq false e (cs ++ rest) u →
      TemplateChars cs rest us → TemplateChars (92 :: (e ++ cs)) rest (u ++ us)
  | line {c : Nat} {cs rest : Text} {us : List Nat} : c = 10 ∨ c = 0x2028 ∨ c = 0x2029 →
      TemplateChars cs rest us → TemplateChars (c :: cs) rest (c :: us)
  | cr {cs rest : Text} {us : List Nat} : NextNot (· = 10) (cs ++ rest) →
      TemplateChars cs rest us → TemplateChars (13 :: cs) rest (10 :: us)
  | crlf {cs rest : Text} {us : List Nat} : TemplateChars cs rest us →
      TemplateChars (13 :: 10 :: cs) rest (10 :: us)

/-- A Unicode scalar value: what a Rust `char` can be. -/
def Scalar (c : Nat) : Prop := c < 0xD800 ∨ (0xE000 ≤ c ∧ c < 0x110000)

/-- The text contains `\` followed by three octal digits of which the first is at least `4`. -/
def HighOctal (s : Text) : Prop :=
  ∃ pre a b c post, s = pre ++ 92 :: a :: b :: c :: post ∧ 52 ≤ a ∧ a ≤ 55 ∧ OctalDigit b ∧ OctalDigit c

/-- What ends a template part: a backtick, or `${`. -/
def closing (isEnd : Bool) : Text := if isEnd then [96] else [36, 123]

/-- The token type of a template part. -/
def partKind (isEnd : Bool) : Kind := if isEnd then .partEnd else .part

/-- A template after its opening backtick: the source, what follows the template, the values of its string
parts and the source of its substitutions. -/
inductive TemplateTail : Text → Text → List (List Nat) → List Text → Prop where
  | last {cs rest : Text} {us : List Nat} : TemplateChars cs (96 :: rest) us →
      TemplateTail (cs ++ 96 :: rest) rest [us] []
  | sub {cs e t rest : Text} {us : List Nat} {uss : List (List Nat)} {es : List Text} :
      TemplateChars cs (36 :: 123 :: (e ++ 125 :: t)) us → TemplateTail t rest uss es →
      TemplateTail (cs ++ 36 :: 123 :: (e ++ 125 :: t)) rest (us :: uss) (e :: es)

/-- The source begins with a template. -/
def TemplateLiteral (token rest : Text) (uss : List (List Nat)) (es : List Text) : Prop :=
  ∃ t, token ++ rest = 96 :: t ∧ TemplateTail t rest uss es

end Verif.Escape
