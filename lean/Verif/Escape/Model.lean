import Verif.Names.Model
/-!
# String and template literals: emitting and reading

Models `emit-js/src/escape.rs`, the template emitters of `emit-js/src/expr.rs`, `expr_js.rs` and `hir.rs`,
`js_string_literal` of `minify-js/src/rename/mod.rs`, and on the reading side `lex_string` and
`lex_template_string_continue` of `parse-js/src/lex/mod.rs` and the decoders of
`parse-js/src/parse/expr/lit.rs`.

Text is a list of code points. The lexer searches bytes for ASCII delimiters, which is the same as searching
characters because ASCII bytes occur in no multi-byte character. Error positions are left out.
-/

namespace Verif.Escape

/-- Text as code points. -/
abbrev Text := List Nat

/-- `char::encode_utf16` of a code point (also `UTF16EncodeCodePoint` of ECMA-262). -/
def utf16 (c : Nat) : List Nat :=
  if c < 0x10000 then [c] else [0xD800 + (c - 0x10000) / 0x400, 0xDC00 + (c - 0x10000) % 0x400]

/-- `str::encode_utf16`. -/
def utf16s (s : Text) : List Nat := s.flatMap utf16

/-- `String::from_utf16_lossy`: pairs of surrogates are combined, other surrogates become U+FFFD. -/
def fromUtf16Lossy : List Nat → Text
  | [] => []
  | u :: us =>
    if 0xD800 ≤ u ∧ u ≤ 0xDBFF then
      match us with
      | v :: vs =>
        if 0xDC00 ≤ v ∧ v ≤ 0xDFFF then (0x10000 + (u - 0xD800) * 0x400 + (v - 0xDC00)) :: fromUtf16Lossy vs
        else 0xFFFD :: fromUtf16Lossy (v :: vs)
      | [] => [0xFFFD]
    else if 0xDC00 ≤ u ∧ u ≤ 0xDFFF then 0xFFFD :: fromUtf16Lossy us
    else u :: fromUtf16Lossy us

/-! ## Emitting -/

/-- An uppercase hexadecimal digit. -/
def hexUpper (n : Nat) : Nat := if n < 10 then 48 + n else 55 + n

/-- A lowercase hexadecimal digit. -/
def hexLower (n : Nat) : Nat := if n < 10 then 48 + n else 87 + n

/-- `format!("\\x{:02X}", c)` for `c < 256`. -/
def xEscapeUpper (c : Nat) : Text := [92, 120, hexUpper (c / 16), hexUpper (c % 16)]

/-- `format!("\\x{:02x}", c)` for `c < 256`. -/
def xEscapeLower (c : Nat) : Text := [92, 120, hexLower (c / 16), hexLower (c % 16)]

/-- `char::is_ascii_digit`. -/
def isDigit (c : Nat) : Bool := 48 ≤ c && c ≤ 57

/-- `escape.rs` 62–96: `escape_string_into` (on code points instead of UTF-8 bytes). -/
def escapeString (quote : Nat) : Text → Text
  | [] => []
  | c :: cs =>
    (if c = 92 then [92, 92]
    else if c = 34 ∧ quote = 34 then [92, 34]
    else if c = 39 ∧ quote = 39 then [92, 39]
    else if c = 10 then [92, 110]
    else if c = 13 then [92, 114]
    else if c = 9 then [92, 116]
    else if c = 0 then
      if (match cs with | d :: _ => isDigit d | [] => false) then [92, 120, 48, 48] else [92, 48]
    else if c = 0x2028 then [92, 117, 50, 48, 50, 56]
    else if c = 0x2029 then [92, 117, 50, 48, 50, 57]
    else if c < 0x20 then xEscapeUpper c
    else [c]) ++ escapeString quote cs

/-- `emitter.rs`: `QuoteStyle`. -/
inductive QuoteStyle where
  | double | single | auto
deriving DecidableEq

/-- `escape.rs` 8–34: `emit_string_literal`. -/
def emitString (value : Text) (style : QuoteStyle) (minify : Bool) : Text :=
  let emitWith := fun quote => (quote, escapeString quote value)
  let (quote, escaped) :=
    match style with
    | .double => emitWith 34
    | .single => emitWith 39
    | .auto =>
      let d := emitWith 34
      let s := emitWith 39
      if minify && decide (Names.byteLen s.2 + 2 < Names.byteLen d.2 + 2) then s else d
  quote :: escaped ++ [quote]

/-- `rename/mod.rs` 867–891: the loop of `js_string_literal`. `char::is_control` is U+0000–U+001F and
U+007F–U+009F. -/
def minifyEscape : Text → Text
  | [] => []
  | c :: cs =>
    (if c = 34 then [92, 34]
    else if c = 92 then [92, 92]
    else if c = 10 then [92, 110]
    else if c = 13 then [92, 114]
    else if c = 9 then [92, 116]
    else if c = 8 then [92, 98]
    else if c = 12 then [92, 102]
    else if c = 0x2028 then [92, 117, 50, 48, 50, 56]
    else if c = 0x2029 then [92, 117, 50, 48, 50, 57]
    else if c ≤ 0x1F ∨ (0x7F ≤ c ∧ c ≤ 0x9F) then xEscapeLower c
    else [c]) ++ minifyEscape cs

/-- `rename/mod.rs` 867–891: `js_string_literal`. -/
def minifyString (value : Text) : Text := 34 :: minifyEscape value ++ [34]

/-- `escape.rs` 100–120: `emit_template_literal_segment`. -/
def emitSegment : Text → Text
  | [] => []
  | c :: cs =>
    (if c = 92 then [92, 92]
    else if c = 96 then [92, 96]
    else if c = 36 then [92, 36]
    else if c = 10 then [92, 110]
    else if c = 13 then [92, 114]
    else if c = 0x2028 then [92, 117, 50, 48, 50, 56]
    else if c = 0x2029 then [92, 117, 50, 48, 50, 57]
    else if c < 0x20 then xEscapeUpper c
    else [c]) ++ emitSegment cs

/-- `str::strip_prefix('`')`, or the text itself. -/
def stripBacktickPrefix : Text → Text
  | 96 :: s => s
  | s => s

/-- `str::strip_suffix('`')`, or the text itself. -/
def stripBacktickSuffix (s : Text) : Text :=
  if s.getLast? = some 96 then s.dropLast else s

/-- `cooked.ends_with("${")`, then without those two characters. -/
def stripDollarBrace (s : Text) : Text :=
  if [36, 123].isSuffixOf s then s.take (s.length - 2) else s

/-- `escape.rs` 124–142: `cooked_template_segment`. -/
def cookedSegment (raw : Text) (isFirst isLast : Bool) : Text :=
  let a := if isFirst then stripBacktickPrefix raw else raw
  if isLast then stripBacktickSuffix a else stripDollarBrace a

/-- `ast/expr/lit.rs`: `LitTemplatePart`, with a substitution given by its emitted text. -/
inductive Part where
  | string (s : Text)
  | substitution (expr : Text)
deriving DecidableEq

/-- The loop of `emit_template_literal` and `emit_template_parts`. -/
def emitPartsFrom (len : Nat) : Nat → List Part → Text
  | _, [] => []
  | idx, .string s :: ps =>
    emitSegment (cookedSegment s (idx == 0) (idx + 1 == len)) ++ emitPartsFrom len (idx + 1) ps
  | idx, .substitution e :: ps => [36, 123] ++ e ++ [125] ++ emitPartsFrom len (idx + 1) ps

/-- `emit-js/src/expr.rs` 767–792 and `expr_js.rs` 907–929: a template literal from the syntax tree. -/
def emitTemplateAst (parts : List Part) : Text := 96 :: emitPartsFrom parts.length 0 parts ++ [96]

/-- `emit-js/src/hir.rs` 1903–1924: a template literal from the HIR, with each span's expression given by
its emitted text. -/
def emitTemplateHir (head : Text) (spans : List (Text × Text)) : Text :=
  96 :: emitSegment head ++
    spans.flatMap (fun p => [36, 123] ++ p.1 ++ [125] ++ emitSegment p.2) ++ [96]

/-! ## Lexing -/

/-- `lex/mod.rs` token types of interest. -/
inductive Kind where
  | string | part | partEnd | invalid
deriving DecidableEq

/-- What a lexer returns: token type, consumed text, remaining text. -/
structure Lexed where
  kind : Kind
  text : Text
  rest : Text
deriving DecidableEq

/-- Consumed before the rest was lexed. -/
def Lexed.push (pre : Text) (l : Lexed) : Lexed := { l with text := pre ++ l.text }

/-- `lex/mod.rs` 903–957: `lex_string` after the opening quote. Characters other than `\`, CR, LF and the
quote are skipped one at a time instead of by a search. -/
def lexStr (quote : Nat) : Bool → Text → Lexed
  | _, [] => ⟨.invalid, [], []⟩
  | invalid, c :: s =>
    if c = 92 then
      match s with
      | [] => ⟨.invalid, [92], []⟩
      | d :: t =>
        if d = 13 then
          match t with
          | [] => (lexStr quote invalid []).push [92, 13]
          | e :: t' =>
            if e = 10 then (lexStr quote invalid t').push [92, 13, 10]
            else (lexStr quote invalid (e :: t')).push [92, 13]
        else (lexStr quote invalid t).push [92, d]
    else if c = 13 then (lexStr quote true s).push [13]
    else if c = quote then ⟨if invalid then .invalid else .string, [c], s⟩
    else if c = 10 then (lexStr quote true s).push [10]
    else (lexStr quote invalid s).push [c]

/-- `lex/mod.rs` 901–958 and `drive_fallible`: the token that begins with a quote. After an unescaped CR
the code also skips an LF; leaving the LF to the next turn marks the token invalid as well. -/
def lexString : Text → Lexed
  | [] => ⟨.invalid, [], []⟩
  | q :: s => (lexStr q false s).push [q]

/-- `lex/mod.rs` 978–1018: `lex_template_string_continue`. -/
def lexTpl : Text → Lexed
  | [] => ⟨.invalid, [], []⟩
  | c :: s =>
    if c = 92 then
      match s with
      | [] => ⟨.invalid, [92], []⟩
      | d :: t => (lexTpl t).push [92, d]
    else if c = 96 then ⟨.partEnd, [96], s⟩
    else if c = 36 then
      match s with
      | [] => ⟨.invalid, [], [36]⟩
      | d :: t => if d = 123 then ⟨.part, [36, 123], t⟩ else (lexTpl (d :: t)).push [36]
    else (lexTpl s).push [c]

/-- `lex/mod.rs` 1020–1024: `lex_template` (the first character is a backtick). -/
def lexTemplate (s : Text) : Lexed := (lexTpl (s.drop 1)).push (s.take 1)

/-! ## Decoding -/

/-- `lit.rs` 96–101: `LiteralErrorKind`. -/
inductive LitErr where
  | invalidEscape | unexpectedEnd | lineTerminator
deriving DecidableEq

/-- `('0'..='7').contains(&ch)`. -/
def isOctal (c : Nat) : Bool := 48 ≤ c && c ≤ 55

/-- `char::is_ascii_hexdigit`. -/
def isHex (c : Nat) : Bool := (48 ≤ c && c ≤ 57) || (97 ≤ c && c ≤ 102) || (65 ≤ c && c ≤ 70)

/-- The value of a hexadecimal digit. -/
def hexVal (c : Nat) : Nat := if c ≤ 57 then c - 48 else if c ≤ 70 then c - 55 else c - 87

/-- `from_str_radix(_, 16)` of hexadecimal digits, without the overflow check (see `decodeEsc16`). -/
def hexNum (s : Text) : Nat := s.foldl (fun n c => n * 16 + hexVal c) 0

/-- `lit.rs` 307–318: up to two more octal digits, then the value of all. -/
def octalTail (s : Text) : Text := (s.take 2).takeWhile isOctal

/-- The value of octal digits. -/
def octNum (s : Text) : Nat := s.foldl (fun n c => n * 8 + (c - 48)) 0

/-- `lit.rs` 286–432: `decode_escape_sequence_utf16`: the code units and what remains. A number in braces
that overflows `u32` is an error like one above U+10FFFF. -/
def decodeEsc16 : Text → Except LitErr (List Nat × Text)
  | [] => .error .unexpectedEnd
  | c :: s =>
    if c = 13 then
      match s with
      | [] => .ok ([], [])
      | d :: t => if d = 10 then .ok ([], t) else .ok ([], d :: t)
    else if c = 10 ∨ c = 0x2028 ∨ c = 0x2029 then .ok ([], s)
    else if c = 98 then .ok ([8], s)
    else if c = 102 then .ok ([12], s)
    else if c = 110 then .ok ([10], s)
    else if c = 114 then .ok ([13], s)
    else if c = 116 then .ok ([9], s)
    else if c = 118 then .ok ([11], s)
    else if isOctal c then .ok ([octNum (c :: octalTail s)], s.drop (octalTail s).length)
    else if c = 120 then
      match s with
      | [] => .error .unexpectedEnd
      | [_] => .error .unexpectedEnd
      | h1 :: h2 :: t => if isHex h1 && isHex h2 then .ok ([hexNum [h1, h2]], t) else .error .invalidEscape
    else if c = 117 then
      if s.head? = some 123 then
        if 125 ∈ s then
          let hex := (s.drop 1).takeWhile (· ≠ 125)
          if hex.isEmpty || !hex.all isHex then .error .invalidEscape
          else if hexNum hex > 0x10FFFF then .error .invalidEscape
          else .ok (utf16 (hexNum hex), s.drop (hex.length + 2))
        else .error .unexpectedEnd
      else
        let hex := s.take 4
        if Names.byteLen hex < 4 then .error .unexpectedEnd
        else if !hex.all isHex then .error .invalidEscape
        else .ok ([hexNum hex], s.drop 4)
    else .ok (utf16 c, s)

/-- `lit.rs` 466–504: `decode_literal_utf16`. Every turn consumes at least one character, so the length of
the text is enough turns. -/
def decodeLit16 (allowLines : Bool) : Nat → Text → Except LitErr (List Nat)
  | _, [] => .ok []
  | 0, _ :: _ => .ok []
  | fuel + 1, c :: s =>
    if c = 92 then
      match decodeEsc16 s with
      | .error e => .error e
      | .ok (u, t) =>
        match decodeLit16 allowLines fuel t with
        | .error e => .error e
        | .ok us => .ok (u ++ us)
    else if !allowLines && (c == 10 || c == 13) then .error .lineTerminator
    else
      match decodeLit16 allowLines fuel s with
      | .error e => .error e
      | .ok us => .ok (utf16 c ++ us)

/-- `lit.rs` 466–504 with enough turns. -/
def decodeLiteral16 (raw : Text) (allowLines : Bool) : Except LitErr (List Nat) :=
  decodeLit16 allowLines raw.length raw

/-- `char::from_u32(_).unwrap_or('\u{FFFD}')`. -/
def fromU32 (v : Nat) : Nat := if 0xD800 ≤ v ∧ v ≤ 0xDFFF then 0xFFFD else v

/-- `lit.rs` 110–277: `decode_escape_sequence`: at most one character and what remains. (Octal values and
`\x` values are below U+D800, so `char::from_u32` does not fail there.) -/
def decodeEsc : Text → Except LitErr (Text × Text)
  | [] => .error .unexpectedEnd
  | c :: s =>
    if c = 13 then
      match s with
      | [] => .ok ([], [])
      | d :: t => if d = 10 then .ok ([], t) else .ok ([], d :: t)
    else if c = 10 ∨ c = 0x2028 ∨ c = 0x2029 then .ok ([], s)
    else if c = 98 then .ok ([8], s)
    else if c = 102 then .ok ([12], s)
    else if c = 110 then .ok ([10], s)
    else if c = 114 then .ok ([13], s)
    else if c = 116 then .ok ([9], s)
    else if c = 118 then .ok ([11], s)
    else if isOctal c then .ok ([octNum (c :: octalTail s)], s.drop (octalTail s).length)
    else if c = 120 then
      match s with
      | [] => .error .unexpectedEnd
      | [_] => .error .unexpectedEnd
      | h1 :: h2 :: t => if isHex h1 && isHex h2 then .ok ([hexNum [h1, h2]], t) else .error .invalidEscape
    else if c = 117 then
      if s.head? = some 123 then
        if 125 ∈ s then
          let hex := (s.drop 1).takeWhile (· ≠ 125)
          if hex.isEmpty || !hex.all isHex then .error .invalidEscape
          else if hexNum hex > 0x10FFFF then .error .invalidEscape
          else .ok ([fromU32 (hexNum hex)], s.drop (hex.length + 2))
        else .error .unexpectedEnd
      else
        let hex := s.take 4
        if Names.byteLen hex < 4 then .error .unexpectedEnd
        else if !hex.all isHex then .error .invalidEscape
        else
          let value := hexNum hex
          let rest := s.drop 4
          let low := (rest.drop 2).take 4
          if 0xD800 ≤ value ∧ value ≤ 0xDBFF ∧ [92, 117].isPrefixOf rest ∧ low.length = 4 ∧
              low.all isHex ∧ 0xDC00 ≤ hexNum low ∧ hexNum low ≤ 0xDFFF then
            .ok ([0x10000 + (value - 0xD800) * 0x400 + (hexNum low - 0xDC00)], rest.drop 6)
          else .ok ([fromU32 value], rest)
    else .ok ([c], s)

/-- `lit.rs` 434–464: `decode_literal`. -/
def decodeLit (allowLines : Bool) : Nat → Text → Except LitErr Text
  | _, [] => .ok []
  | 0, _ :: _ => .ok []
  | fuel + 1, c :: s =>
    if c = 92 then
      match decodeEsc s with
      | .error e => .error e
      | .ok (u, t) =>
        match decodeLit allowLines fuel t with
        | .error e => .error e
        | .ok us => .ok (u ++ us)
    else if !allowLines && (c == 10 || c == 13) then .error .lineTerminator
    else
      match decodeLit allowLines fuel s with
      | .error e => .error e
      | .ok us => .ok (c :: us)

/-- `lit.rs` 434–464 with enough turns. -/
def decodeLiteral (raw : Text) (allowLines : Bool) : Except LitErr Text :=
  decodeLit allowLines raw.length raw

/-- `lit.rs` 716–721: `normalise_literal_string`. -/
def normaliseString (raw : Text) : Option Text :=
  if Names.byteLen raw < 2 then none
  else
    match decodeLiteral ((raw.drop 1).dropLast) false with
    | .ok s => some s
    | .error _ => none

/-- `lit.rs` 506–568: `find_legacy_escape_sequence`, only whether there is one. The code walks over bytes;
what it skips after a backslash is one byte, and the remaining bytes of a character are never a backslash. -/
def findLegacy : Text → Bool
  | [] => false
  | c :: s =>
    if c = 92 then
      match s with
      | [] => false
      | d :: t =>
        if d = 48 then
          match t with
          | [] => false
          | n :: t' => if isDigit n then true else findLegacy (n :: t')
        else if 49 ≤ d ∧ d ≤ 57 then true
        else findLegacy t
    else findLegacy s

/-- What `lit_str_val_with_mode_and_legacy_escape` returns: the code units, the value, and whether there is
a legacy escape. -/
structure StrVal where
  units : List Nat
  value : Text
  legacy : Bool
deriving DecidableEq

/-- `lit.rs` 1082–1136 outside JSX, given the token's text: `none` is a syntax error. A token that does not
begin with a quote is never passed here. -/
def litStrVal (raw : Text) : Option StrVal :=
  match raw with
  | [] => none
  | quote :: _ =>
    let hasClosing := raw.getLast? == some quote
    let body := if hasClosing then (raw.take (raw.length - 1)).drop 1 else raw.drop 1
    match decodeLiteral16 body false with
    | .error _ => none
    | .ok units => if hasClosing then some ⟨units, fromUtf16Lossy units, findLegacy body⟩ else none

/-- `lit.rs` 586–607: `template_content`. -/
def templateContent (raw : Text) (isEnd : Bool) : Option Text :=
  let start := if raw.head? = some 96 ∧ raw.length > 1 then 1 else 0
  if isEnd then
    if raw.getLast? = some 96 then
      if raw.length - 1 < start then none else some ((raw.take (raw.length - 1)).drop start)
    else none
  else if [36, 123].isSuffixOf raw then
    if raw.length - 2 < start then none else some ((raw.take (raw.length - 2)).drop start)
  else none

/-- The strings of one template part: raw code units, cooked code units if any, the string in the tree, and
whether an untagged template reports a legacy escape. -/
structure PartVal where
  raw : List Nat
  cooked : Option (List Nat)
  str : Text
  legacy : Bool
deriving DecidableEq

/-- `lit.rs` 1196–1231 and 1247–1280: one string part of a template, from its token. `none` is a syntax
error. -/
def templatePart (tagged : Bool) (text : Text) (isEnd : Bool) : Option PartVal :=
  match templateContent text isEnd with
  | none => none
  | some content =>
    let legacy := findLegacy content
    match decodeLiteral16 content true with
    | .ok units =>
      some ⟨utf16s content, if tagged && legacy then none else some units, fromUtf16Lossy units, legacy⟩
    | .error _ => if tagged then some ⟨utf16s content, none, [], legacy⟩ else none

end Verif.Escape
