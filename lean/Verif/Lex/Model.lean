/-!
# The emitter's buffer and the lexer

Model of emit-js/src/emitter.rs (which decides where a space is needed between two tokens) and of
parse-js/src/lex/mod.rs (`lex_next`). Texts are lists of characters; the code works on UTF-8 bytes, all
of whose tests are about ASCII bytes.
-/

namespace Verif.Lex

abbrev Text := List Char

/-! ## Characters -/

/-- The Unicode tables the lexer asks about characters beyond ASCII: `is_xid_start` and
`is_xid_continue` of the crate `unicode_ident`. Nothing is assumed of them. -/
structure Unicode where
  start : Char → Bool
  part : Char → Bool

/-- `c.is_ascii()`. -/
def isAscii (c : Char) : Bool := c.toNat < 128

/-- Models `is_identifier_start`, parse-js/src/lex/mod.rs:558-564. -/
def idStart (U : Unicode) (c : Char) : Bool :=
  if isAscii c then c = '$' || c = '_' || c.isAlpha else U.start c

/-- Models `is_identifier_continue` outside JSX, parse-js/src/lex/mod.rs:566-575. -/
def idPart (U : Unicode) (c : Char) : Bool :=
  if isAscii c then c = '$' || c = '_' || c.isDigit || c.isAlpha
  else U.part c || c.toNat = 0x200c || c.toNat = 0x200d

/-- Models `ECMASCRIPT_LINE_TERMINATORS`, parse-js/src/char.rs:61. -/
def isLineTerminator (c : Char) : Bool :=
  c = '\n' || c = '\r' || c.toNat = 0x2028 || c.toNat = 0x2029

/-- Models `ECMASCRIPT_WHITESPACE`, parse-js/src/char.rs:63-85. -/
def isWhitespace (c : Char) : Bool :=
  [0x09, 0x0b, 0x0c, 0x20, 0xa0, 0x1680, 0x2000, 0x2001, 0x2002, 0x2003, 0x2004, 0x2005, 0x2006, 0x2007,
   0x2008, 0x2009, 0x200a, 0x202f, 0x205f, 0x3000, 0xfeff].contains c.toNat

/-! ## The lexer -/

/-- The classes of tokens that are told apart here. Models the members of `TT`, with one class each for
identifiers and keywords, for numbers, and for operators and punctuation. -/
inductive Kind | word | number | bigint | string | regex | punct
  deriving DecidableEq, Repr

/-- Whether `/` starts a regular expression: `LexMode::Standard` and `LexMode::SlashIsRegex`. -/
inductive Mode | standard | slashIsRegex
  deriving DecidableEq, Repr

/-- `OPERATORS_MAPPING`, parse-js/src/lex/mod.rs:289-353, without `@` and `#`. -/
def operators : List Text :=
  [['&'], ['&', '&'], ['&', '&', '='], ['&', '='], ['*'], ['*', '*'], ['*', '*', '='], ['*', '='],
   ['|'], ['|', '|'], ['|', '|', '='], ['|', '='], ['}'], ['{'], [']'], ['['], ['^'], ['^', '='],
   ['<'], ['<', '<'], ['<', '<', '='], ['<', '='], ['>'], ['>', '>'], ['>', '>', '>'],
   ['>', '>', '>', '='], ['>', '>', '='], ['>', '='], [':'], [','], ['.'], ['.', '.', '.'], ['='],
   ['=', '>'], ['=', '='], ['=', '=', '='], ['!'], ['!', '='], ['!', '=', '='], ['-'], ['-', '='],
   ['-', '-'], [')'], ['('], ['%'], ['%', '='], ['+'], ['+', '='], ['+', '+'], ['?'], ['?', '.'],
   ['?', '.', '['], ['?', '.', '('], ['?', '?'], ['?', '?', '='], [';'], ['/'], ['/', '='], ['~']]

/-- The longest operator at the start of the text: `SIG.find`, with `MatchKind::LeftmostLongest`,
parse-js/src/lex/mod.rs:72-110, 441-469. -/
def munch (ts : Text) : Text :=
  operators.foldl (fun best p => if p.isPrefixOf ts && best.length < p.length then p else best) []

/-- Characters up to the first one that is no part of an identifier: `consume_identifier`,
parse-js/src/lex/mod.rs:622-654. Simplification: a `\` escape is refused. -/
def wordEnd (U : Unicode) : Text → Option Text
  | [] => some []
  | c :: r => if c = '\\' then none else if idPart U c then wordEnd U r else some (c :: r)

/-- Whether there is a next character, and it satisfies the test: `peek_or_eof(0)`. -/
def headIs (f : Char → Bool) : Text → Bool
  | c :: _ => f c
  | [] => false

/-- Models `consume_digits_with_separators`, parse-js/src/lex/mod.rs:692-725: what has been seen
(`consumed_digit`, `valid`, `prev_sep`), and the text left. -/
def digitsEnd (isD : Char → Bool) (consumed valid prevSep : Bool) : Text → Bool × Bool × Text
  | [] => (consumed, valid && !prevSep, [])
  | c :: r =>
    if c = '_' then digitsEnd isD consumed (valid && !prevSep && consumed && headIs isD r) true r
    else if isD c then digitsEnd isD true valid false r
    else (consumed, valid && !prevSep, c :: r)

/-- The integer part of a number, with `has_integer` and `valid`: parse-js/src/lex/mod.rs:728-741. -/
def integerEnd (ts : Text) : Bool × Bool × Text :=
  if headIs (· = '.') ts then (false, true, ts)
  else
    let (digits, ok, r) := digitsEnd Char.isDigit false true false ts
    (digits, ok && digits, r)

/-- Models `DIGIT_BIN`, parse-js/src/char.rs. -/
def isBin (c : Char) : Bool := c = '0' || c = '1'

/-- Models `DIGIT_OCT`, parse-js/src/char.rs. -/
def isOct (c : Char) : Bool := ['0', '1', '2', '3', '4', '5', '6', '7'].contains c

/-- Models `DIGIT_HEX`, parse-js/src/char.rs. -/
def isHex (c : Char) : Bool :=
  c.isDigit || ['a', 'b', 'c', 'd', 'e', 'f', 'A', 'B', 'C', 'D', 'E', 'F'].contains c

/-- Models `is_legacy_octal`, parse-js/src/lex/mod.rs:744-750. -/
def legacyOctal (integer : Text) : Bool :=
  headIs (· = '0') integer && integer.length > 1 &&
    integer.all fun c => c = '_' || isOct c

/-- The fractional part of a number: parse-js/src/lex/mod.rs:766-784. -/
def fractionEnd (legacy hasInteger valid : Bool) : Text → Bool × Text
  | '.' :: r =>
    if legacy then
      if headIs Char.isDigit r then (false, (digitsEnd Char.isDigit false true false r).2.2)
      else (valid, '.' :: r)
    else
      let (digits, ok, r) := digitsEnd Char.isDigit false true false r
      (valid && ok && (hasInteger || digits), r)
  | r => (valid, r)

/-- An optional sign: parse-js/src/lex/mod.rs:789-791. -/
def signEnd : Text → Text
  | c :: r => if c = '+' || c = '-' then r else c :: r
  | [] => []

/-- The exponent of a number: parse-js/src/lex/mod.rs:787-794. -/
def exponentEnd (valid : Bool) : Text → Bool × Text
  | c :: r =>
    if c = 'e' || c = 'E' then
      let (digits, ok, r) := digitsEnd Char.isDigit false true false (signEnd r)
      (valid && ok && digits, r)
    else (valid, c :: r)
  | [] => (valid, [])

/-- Models `lex_bigint_or_number`, parse-js/src/lex/mod.rs:727-801. -/
def decimalEnd (ts : Text) : Option (Kind × Text) :=
  let (hasInteger, valid, r) := integerEnd ts
  let integer := ts.take (ts.length - r.length)
  if headIs (· = 'n') r && !headIs (· = '.') ts then
    if valid && !(integer.length > 1 && headIs (· = '0') ts) then some (.bigint, r.drop 1) else none
  else
    let (valid, r) := fractionEnd (hasInteger && legacyOctal integer) hasInteger valid r
    let (valid, r) := exponentEnd valid r
    if valid then some (.number, r) else none

/-- Models `lex_binary_bigint_or_number`, `lex_oct_bigint_or_number` and `lex_hex_bigint_or_number`,
parse-js/src/lex/mod.rs:803-859, on the text behind the prefix. The function for hexadecimal numbers has
no second pass; there the second pass takes nothing. -/
def radixEnd (isD : Char → Bool) (ts : Text) : Option (Kind × Text) :=
  let (digits, ok, r) := digitsEnd isD false true false ts
  let (_, extra, q) := digitsEnd Char.isDigit false true false r
  if digits && ok && extra && q.length == r.length then
    if headIs (· = 'n') r then some (.bigint, r.drop 1) else some (.number, r)
  else none

/-- The digits behind the prefixes of `SIG`, parse-js/src/lex/mod.rs:449-454. -/
def radixOf : Text → Option (Char → Bool)
  | '0' :: c :: _ =>
    if c = 'b' || c = 'B' then some isBin
    else if c = 'o' || c = 'O' then some isOct
    else if c = 'x' || c = 'X' then some isHex
    else none
  | _ => none

/-- A number: `SIG` (parse-js/src/lex/mod.rs:446-458) and lines 1156-1159. -/
def numberEnd (ts : Text) : Option (Kind × Text) :=
  match radixOf ts with
  | some isD => radixEnd isD (ts.drop 2)
  | none => decimalEnd ts

/-- The rest of a regular expression behind its first slash: `lex_regex`,
parse-js/src/lex/mod.rs:868-899. The flags say whether a `\\` comes before and whether it is in a set of
characters. An invalid token is `none`. -/
def regexEnd (U : Unicode) : Bool → Bool → Text → Option Text
  | _, _, [] => none
  | true, inSet, c :: r => if isLineTerminator c then none else regexEnd U false inSet r
  | false, inSet, c :: r =>
    if c = '\\' then regexEnd U true inSet r
    else if c = '/' && !inSet then wordEnd U r
    else if c = '[' then regexEnd U false true r
    else if c = ']' && inSet then regexEnd U false false r
    else if isLineTerminator c then none
    else regexEnd U false inSet r

/-- What comes before, in a string: nothing in particular, a `\\`, or a `\\` and a carriage return. -/
inductive Esc | none | backslash | cr
  deriving DecidableEq, Repr

/-- The rest of a string behind its quote: `lex_string`, parse-js/src/lex/mod.rs:901-958. An invalid
token is `none`. -/
def stringEnd (quote : Char) : Esc → Text → Option Text
  | _, [] => none
  | .backslash, c :: r => stringEnd quote (if c = '\r' then .cr else .none) r
  | e, c :: r =>
    if e = .cr && c = '\n' then stringEnd quote .none r
    else if c = '\\' then stringEnd quote .backslash r
    else if c = quote then some r
    else if c = '\r' || c = '\n' then none
    else stringEnd quote .none r

/-- The end of a comment on one line, with whether there is a line terminator:
`lex_single_comment`, parse-js/src/lex/mod.rs:546-556. -/
def lineEnd : Text → Bool × Text
  | [] => (false, [])
  | '\r' :: '\n' :: r => (true, r)
  | c :: r => if isLineTerminator c then (true, r) else lineEnd r

/-- The end of a comment over several lines, with whether there is a line terminator:
`lex_multiline_comment`, parse-js/src/lex/mod.rs:523-544. -/
def commentEnd (nl : Bool) : Text → Bool × Text
  | [] => (nl, [])
  | '*' :: '/' :: r => (nl, r)
  | c :: r => commentEnd (nl || isLineTerminator c) r

/-- Skip whitespace and comments: the loop of `lex_next`, parse-js/src/lex/mod.rs:1086-1121, with
`at_line_start` and `preceded_by_line_terminator`. Every step takes at least one character, so that
`n = ts.length` steps are enough. -/
def skip : Nat → Bool → Bool → Text → Bool × Text
  | 0, _, nl, ts => (nl, ts)
  | n + 1, start, nl, ts =>
    if ['\r', '\n'].isPrefixOf ts then skip n true true (ts.drop 2)
    else if ['/', '*'].isPrefixOf ts then
      let (has, r) := commentEnd false (ts.drop 2)
      skip n (start || has) (nl || has) r
    else if ['/', '/'].isPrefixOf ts then
      let (has, r) := lineEnd (ts.drop 2)
      skip n (start || has) (nl || has) r
    else if ['<', '!', '-', '-'].isPrefixOf ts then
      let (has, r) := lineEnd (ts.drop 4)
      skip n (start || has) (nl || has) r
    else if ['-', '-', '>'].isPrefixOf ts then
      if start then
        let (has, r) := lineEnd (ts.drop 3)
        skip n (start || has) (nl || has) r
      else (nl, ts)
    else if headIs isLineTerminator ts then skip n true true (ts.drop 1)
    else if headIs isWhitespace ts then skip n start nl (ts.drop 1)
    else (nl, ts)

/-- The token at the start of the text, with what is left: the rest of `lex_next`,
parse-js/src/lex/mod.rs:1123-1185. Simplifications: JSX and TypeScript modes, templates, private names,
decorators and invalid tokens are refused; tokens of one class are not told apart by name. -/
def token (U : Unicode) (mode : Mode) (ts : Text) : Option (Kind × Text) :=
  match ts with
  | [] => none
  | c :: r =>
    if c = '\\' then none
    else if idStart U c then (wordEnd U r).map fun r => (.word, r)
    else if c.isDigit then numberEnd ts
    else if c = '"' || c = '\'' then (stringEnd c .none r).map fun r => (.string, r)
    else if c = '/' && mode = .slashIsRegex then (regexEnd U false false r).map fun r => (.regex, r)
    else if c = '<' && headIs (· = '/') r then some (.punct, r)
    else if c = '.' && headIs Char.isDigit r then numberEnd ts
    else if c = '?' && headIs (· = '.') r && headIs Char.isDigit (r.drop 1) then some (.punct, r)
    else if munch ts = [] then none
    else some (.punct, ts.drop (munch ts).length)

/-- A token as the parser sees it: its class, its text, and whether a line terminator precedes it. -/
structure Lexed where
  kind : Kind
  text : Text
  afterNewline : Bool
  deriving DecidableEq, Repr

/-- Read tokens in the modes given, up to the end of the text. The flags say whether the text starts at
the start of a line, and whether a line terminator has been skipped. -/
def lexFrom (U : Unicode) : List Mode → Bool → Bool → Text → Option (List Lexed)
  | [], start, nl, ts => if (skip ts.length start nl ts).2 = [] then some [] else none
  | mode :: modes, start, nl, ts =>
    let (nl, ts) := skip ts.length start nl ts
    match token U mode ts with
    | none => none
    | some (kind, r) =>
      (lexFrom U modes false false r).map fun l => ⟨kind, ts.take (ts.length - r.length), nl⟩ :: l

/-- Read a whole text. -/
def lex (U : Unicode) (modes : List Mode) (ts : Text) : Option (List Lexed) := lexFrom U modes true false ts

/-! ## The emitter -/

/-- Models `Boundary`, emit-js/src/emitter.rs:188-198. -/
inductive Boundary | none | word | number | plus | plusPlus | minus | minusMinus | slash
  deriving DecidableEq, Repr

/-- Models `Leading`, emit-js/src/emitter.rs:200-210. -/
inductive Leading | none | word | number | plus | minus | slash | star | other
  deriving DecidableEq, Repr

/-- Models `HtmlStart`, emit-js/src/emitter.rs:229-238. -/
inductive HtmlStart | start | lt | ltBang | ltBangDash | dash | dashDash | other
  deriving DecidableEq, Repr

/-- Models `needs_space`, emit-js/src/emitter.rs:487-501. -/
def needsSpace : Boundary → Leading → Bool
  | .word, .word | .word, .number | .number, .word | .number, .number => true
  | .plus, .plus | .plusPlus, .plus | .minus, .minus | .minusMinus, .minus => true
  | .slash, .slash | .slash, .star => true
  | _, _ => false

/-- `u8::is_ascii_whitespace`. -/
def asciiSpace (c : Char) : Bool := c = ' ' || c = '\t' || c = '\n' || c = '\r' || c.toNat = 0x0c

/-- Models `classify_leading_char`, emit-js/src/emitter.rs:601-611. -/
def leadingChar (c : Char) : Leading :=
  if c.isDigit then .number
  else if c.isAlpha || c = '_' || c = '$' then .word
  else if c = '+' then .plus
  else if c = '-' then .minus
  else if c = '/' then .slash
  else if c = '*' then .star
  else .other

/-- Models `classify_trailing_char`, emit-js/src/emitter.rs:613-635, on the reversed text. -/
def trailingChar : Text → Boundary
  | [] => .none
  | c :: r =>
    if c.isDigit then .number
    else if c.isAlpha || c = '_' || c = '$' then .word
    else if c = '+' then (if r.head? = some '+' then .plusPlus else .plus)
    else if c = '-' then (if r.head? = some '-' then .minusMinus else .minus)
    else if c = '/' then .slash
    else .none

/-- Models `next_html_start`, emit-js/src/emitter.rs:679-708. -/
def nextHtml (h : HtmlStart) (c : Char) : HtmlStart × Bool :=
  if c = '\n' || c = '\r' then (.start, false)
  else if asciiSpace c then (if h = .start then .start else .other, false)
  else
    match h with
    | .start => (if c = '<' then .lt else if c = '-' then .dash else .other, false)
    | .lt => (if c = '!' then .ltBang else .other, false)
    | .ltBang => (if c = '-' then .ltBangDash else .other, false)
    | .ltBangDash => (.other, c = '-')
    | .dash => (if c = '-' then .dashDash else .other, false)
    | .dashDash => (.other, c = '>')
    | .other => (.other, false)

/-- Models `advance_html_start`, emit-js/src/emitter.rs:661-666. -/
def advanceHtml (h : HtmlStart) (cs : Text) : HtmlStart := cs.foldl (fun h c => (nextHtml h c).1) h

/-- Models `would_start_html_comment`, emit-js/src/emitter.rs:668-677. -/
def startsHtml (h : HtmlStart) : Text → Bool
  | [] => false
  | c :: r => (nextHtml h c).2 || startsHtml (nextHtml h c).1 r

/-- Models `State`, emit-js/src/emitter.rs:173-177. -/
structure State where
  trailing : Boundary
  html : HtmlStart
  deriving DecidableEq, Repr

/-- Models `State::default`, emit-js/src/emitter.rs:179-186. -/
def State.init : State := ⟨.none, .start⟩

/-- Write a text with known boundaries. Models `insert_boundary`, `insert_html_comment_break` and
`push_bytes`, emit-js/src/emitter.rs:441-464, as used by `write_str` (312-322) and `write_with_kind`
(429-439): the characters appended to the buffer and the new state. -/
def write (st : State) (leading : Leading) (trailing : Boundary) (cs : Text) : Text × State :=
  let sp1 : Text := if leading ≠ .none && needsSpace st.trailing leading then [' '] else []
  let h1 := advanceHtml st.html sp1
  let sp2 : Text := if startsHtml h1 cs then [' '] else []
  let h2 := advanceHtml (advanceHtml h1 sp2) cs
  (sp1 ++ sp2 ++ cs, ⟨trailing, h2⟩)

/-- What is written. -/
inductive Item
  /-- an identifier or keyword, by `write_identifier` or `write_keyword`, or by `write_str` -/
  | word (byStr : Bool) (cs : Text)
  /-- a number, by `write_number` -/
  | number (cs : Text)
  /-- the digits of a BigInt, by `write_bigint_literal` -/
  | bigint (digits : Text)
  /-- a string or a regular expression, by `write_str` -/
  | string (cs : Text)
  | regex (cs : Text)
  /-- an operator or other punctuation, by `write_punct` -/
  | punct (cs : Text)
  /-- `write_space` and `write_newline` -/
  | space
  | newline
  deriving DecidableEq, Repr

/-- `write_str`: the boundaries are those of the first and last characters. Models `classify_fragment`,
emit-js/src/emitter.rs:503-540, and `write_str`, 312-322, on texts that neither start nor end with
whitespace. -/
def writeStr (st : State) (cs : Text) : Text × State :=
  match cs with
  | [] => ([], st)
  | c :: _ => write st (leadingChar c) (trailingChar cs.reverse) cs

/-- `write_punct`: `TokenKind` and its boundaries. Models emit-js/src/emitter.rs:362-371 with
`classify_fragment_with_kind` (542-586) and `TokenKind::leading` and `trailing` (637-659). -/
def writePunct (st : State) (cs : Text) : Text × State :=
  match cs with
  | [] => ([], st)
  | c :: _ =>
    if cs = ['+'] then write st .plus .plus cs
    else if cs = ['+', '+'] then write st .plus .plusPlus cs
    else if cs = ['-'] then write st .minus .minus cs
    else if cs = ['-', '-'] then write st .minus .minusMinus cs
    else
      write st (if c = '/' then .slash else if c = '*' then .star else .other)
        (trailingChar cs.reverse) cs

/-- Write one item: the characters appended to the buffer and the new state. Models
`write_identifier`, `write_keyword`, `write_number`, `write_bigint_literal`, `write_string_literal`,
`write_punct`, `write_space` and `write_newline`, emit-js/src/emitter.rs:312-382. -/
def writeItem (st : State) : Item → Text × State
  | .word false cs => if cs = [] then ([], st) else write st .word .word cs
  | .word true cs => writeStr st cs
  | .number cs => if cs = [] then ([], st) else write st .number .number cs
  | .bigint ds =>
    if ds = [] then ([], st) else
    let (out, st) := write st .number .number ds
    (out ++ ['n'], ⟨.word, advanceHtml st.html ['n']⟩)
  | .string cs => writeStr st cs
  | .regex cs => writeStr st cs
  | .punct cs => writePunct st cs
  | .space => ([' '], ⟨.none, advanceHtml st.html [' ']⟩)
  | .newline => (['\n'], ⟨.none, advanceHtml st.html ['\n']⟩)

/-- Write items one after the other. -/
def writeAll (st : State) : List Item → Text
  | [] => []
  | i :: is => (writeItem st i).1 ++ writeAll (writeItem st i).2 is

/-- The text of a new emitter after the items have been written. -/
def emit (is : List Item) : Text := writeAll .init is

end Verif.Lex
