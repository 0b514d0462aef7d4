import Verif.Lex.Model

/-!
# Specification: neighbouring tokens do not run together

What is written is a sequence of tokens, each of which the lexer reads as one token when it stands alone,
in an order the grammar allows. The text must be read back as these tokens.
-/

namespace Verif.Lex

/-- The token an item stands for. -/
def Item.lexeme : Item → Option (Kind × Text)
  | .word _ cs => some (.word, cs)
  | .number cs => some (.number, cs)
  | .bigint ds => some (.bigint, ds ++ ['n'])
  | .string cs => some (.string, cs)
  | .regex cs => some (.regex, cs)
  | .punct cs => some (.punct, cs)
  | .space => none
  | .newline => none

/-- The tokens that should be read back: those that were written, each with whether a line terminator was
written before it and after the token before. -/
def tokensOf (nl : Bool) : List Item → List Lexed
  | [] => []
  | .space :: is => tokensOf nl is
  | .newline :: is => tokensOf true is
  | .word _ cs :: is => ⟨.word, cs, nl⟩ :: tokensOf false is
  | .number cs :: is => ⟨.number, cs, nl⟩ :: tokensOf false is
  | .bigint ds :: is => ⟨.bigint, ds ++ ['n'], nl⟩ :: tokensOf false is
  | .string cs :: is => ⟨.string, cs, nl⟩ :: tokensOf false is
  | .regex cs :: is => ⟨.regex, cs, nl⟩ :: tokensOf false is
  | .punct cs :: is => ⟨.punct, cs, nl⟩ :: tokensOf false is

/-- The parser asks for a regular expression where one was written, and not where a division sign was
written. It may ask in either mode for anything else. -/
def AskedFor (mode : Mode) : Kind × Text → Prop
  | (.regex, _) => mode = .slashIsRegex
  | (.punct, cs) => cs.head? = some '/' → mode = .standard
  | _ => True

/-- The lexer reads the text, standing alone, as one token of this class. -/
def Alone (U : Unicode) (mode : Mode) (k : Kind) (cs : Text) : Prop :=
  lex U [mode] cs = some [⟨k, cs, false⟩]

/-- The modes in which the tokens are asked for suit them, and each is a token when it stands alone. -/
inductive Tokens (U : Unicode) : List Item → List Mode → Prop
  | nil : Tokens U [] []
  | blank {i : Item} {is : List Item} {ms : List Mode} :
      i.lexeme = none → Tokens U is ms → Tokens U (i :: is) ms
  | tok {i : Item} {is : List Item} {m : Mode} {ms : List Mode} {k : Kind} {cs : Text} :
      i.lexeme = some (k, cs) → AskedFor m (k, cs) → Alone U m k cs → Tokens U is ms →
      Tokens U (i :: is) (m :: ms)

/-- What may stand behind the opening quote of a string literal, up to and with the closing quote: characters
other than the quote, `\\`, line feed and carriage return; `\\` with any character behind it; `\\` with a
carriage return and a line feed (ECMA-262, 12.9.4). What an escape stands for is C63. -/
inductive StringBody (quote : Char) : Text → Prop
  | close : StringBody quote [quote]
  | char {c : Char} {r : Text} : c ≠ quote → c ≠ '\\' → c ≠ '\n' → c ≠ '\r' → StringBody quote r →
      StringBody quote (c :: r)
  | escape {c : Char} {r : Text} : c ≠ '\r' → StringBody quote r → StringBody quote ('\\' :: c :: r)
  | crlf {r : Text} : StringBody quote r → StringBody quote ('\\' :: '\r' :: '\n' :: r)
  | cr {r : Text} : r.head? ≠ some '\n' → StringBody quote r → StringBody quote ('\\' :: '\r' :: r)

/-- The characters of a class in a regular expression: any but `\\`, `]` and line terminators, or `\\` with a
character behind it that is no line terminator (ECMA-262, 12.9.5). -/
inductive ClassChars : Text → Prop
  | nil : ClassChars []
  | char {c : Char} {r : Text} : c ≠ '\\' → c ≠ ']' → isLineTerminator c = false → ClassChars r →
      ClassChars (c :: r)
  | escape {c : Char} {r : Text} : isLineTerminator c = false → ClassChars r → ClassChars ('\\' :: c :: r)

/-- The characters between the slashes of a regular expression: any but `\\`, `/`, `[` and line terminators, `\\`
with a character behind it that is no line terminator, or a class in brackets (ECMA-262, 12.9.5). -/
inductive RegexChars : Text → Prop
  | nil : RegexChars []
  | char {c : Char} {r : Text} : c ≠ '\\' → c ≠ '/' → c ≠ '[' → isLineTerminator c = false → RegexChars r →
      RegexChars (c :: r)
  | escape {c : Char} {r : Text} : isLineTerminator c = false → RegexChars r → RegexChars ('\\' :: c :: r)
  | set {k r : Text} : ClassChars k → RegexChars r → RegexChars ('[' :: k ++ ']' :: r)

/-- The operators and punctuators that may stand at the end of an expression or a statement. -/
def enders : List Text := [[')'], [']'], ['}'], ['+', '+'], ['-', '-']]

/-- Those that may stand at the start of an expression or a binding pattern. -/
def starters : List Text :=
  [['('], ['['], ['{'], ['!'], ['~'], ['+'], ['-'], ['+', '+'], ['-', '-']]

/-- Those that may close or separate parts of which the last is empty, as in `()`, `[,]` and `;;`. -/
def closers : List Text := [[')'], [']'], ['}'], [','], [';'], [':']]

/-- Which punctuators the grammar allows directly behind a punctuator. Behind the end of an expression
there may be anything; behind `.` and `?.` there is a name; behind anything else there is an operand or
nothing; `...` and the `*` of a generator method come first in their list. -/
def punctAfter (p q : Text) : Bool :=
  enders.contains p ||
  (p != ['.'] && p != ['?', '.'] &&
    (starters.contains q || closers.contains q ||
      (q == ['.', '.', '.'] && [['('], ['['], ['{'], [','], ['?', '.', '('], ['?', '.', '[']].contains p) ||
      (q == ['*'] && [['{'], [','], [';']].contains p)))

/-- An integer written in decimal digits, which a dot behind it would continue. -/
def takesDot (cs : Text) : Bool := cs.all fun c => c.isDigit || c = '_'

/-- A regular expression with at least one flag, the last of which is an ASCII letter, digit, `_` or `$`. -/
def hasFlags (cs : Text) : Bool :=
  match cs.reverse with
  | c :: _ => c.isAlpha || c.isDigit || c = '_' || c = '$'
  | [] => false

/-- What the grammar allows directly behind an item, and in addition: no dot directly behind an integer,
and no name, keyword or number directly behind a regular expression without flags. -/
def mayFollow : Item → Item → Bool
  | .punct p, .punct q => punctAfter p q
  | .punct p, .number _ | .punct p, .bigint _ | .punct p, .string _ | .punct p, .regex _ =>
    p != ['.'] && p != ['?', '.']
  | .number cs, .punct q => q.head? != some '.' || !takesDot cs
  | .regex cs, .word _ _ | .regex cs, .number _ | .regex cs, .bigint _ => hasFlags cs
  | _, _ => true

/-- Identifiers written by `write_str` are ASCII. -/
def plain : Item → Bool
  | .word true cs => cs.all isAscii
  | _ => true

/-- The three items whose texts make up `<!--`. -/
def opensComment : List Item → Bool
  | .punct ['<'] :: .punct ['!'] :: .punct ['-', '-'] :: _ => true
  | _ => false

/-- Whether what comes next is the first token on its line. -/
def lineStartAfter (start : Bool) : Item → Bool
  | .newline => true
  | .space => start
  | _ => false

/-- The order in which items may be written: each may follow the one before, and `<`, `!` and `--` come
directly behind one another only at the start of a line. -/
def Ordered (follow : Item → Item → Bool) : Bool → List Item → Prop
  | _, [] => True
  | start, i :: is =>
    plain i = true ∧ (opensComment (i :: is) = true → start = true) ∧
    (∀ j, is.head? = some j → follow i j = true) ∧ Ordered follow (lineStartAfter start i) is

/-- The text of a punctuator, followed by the first character of another, starts a longer operator. -/
def joins (p q : Text) : Bool :=
  operators.any fun o => (p ++ q.take 1).isPrefixOf o

/-- The emitter separates plus signs from plus signs, and minus signs from minus signs. -/
def separated (p q : Text) : Bool :=
  (p == ['+'] && (q == ['+'] || q == ['+', '+'])) || (p == ['-'] && (q == ['-'] || q == ['-', '-']))

/-- Weaker than `mayFollow`: any punctuator may follow any other with which it does not join. -/
def apart : Item → Item → Bool
  | .punct p, .punct q => !joins p q || separated p q
  | i, j => mayFollow i j

end Verif.Lex
