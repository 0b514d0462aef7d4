/-!
# Model of BigInts, strings and source positions

Models `JsBigInt` (`/repo/vm-js/src/value.rs` 8–104) and the BigInt cases of expression evaluation
(`/repo/vm-js/src/exec.rs` 3168–3174, 3954, 4068–4085, 4492–4497, 4834–4839), `JsString`
(`/repo/vm-js/src/string.rs`), `cmp_utf16` (`/repo/vm-js/src/module_request.rs` 13–32) and
`SourceText` (`/repo/vm-js/src/source.rs` 6–63).

Simplifications: `u128`, `u64`, `u32`, `u16` are `Nat`s with the bounds written where the code relies on
them; characters are their scalar values; ASCII strings are lists of character codes.
-/

namespace Verif.Values

/-! ## BigInt -/

/-- `value.rs` 8–12: `JsBigInt`, sign and `u128` magnitude. -/
structure Big where
  negative : Bool
  magnitude : Nat
deriving DecidableEq, Repr

/-- `u128::checked_add`. -/
def addU (a b : Nat) : Option Nat := if a + b < 2 ^ 128 then some (a + b) else none

/-- `u128::checked_mul`. -/
def mulU (a b : Nat) : Option Nat := if a * b < 2 ^ 128 then some (a * b) else none

/-- `value.rs` 15–20: `zero`. -/
def Big.zero : Big := { negative := false, magnitude := 0 }

/-- `value.rs` 22–27: `from_u128`. -/
def Big.fromU (n : Nat) : Big := { negative := false, magnitude := n }

/-- `value.rs` 29–31: `is_zero`. -/
def Big.isZero (b : Big) : Bool := b.magnitude == 0

/-- `value.rs` 33–35: `is_negative`. -/
def Big.isNegative (b : Big) : Bool := b.negative && !b.isZero

/-- `value.rs` 37–46: `negate`. -/
def Big.negate (b : Big) : Big :=
  if b.isZero then b else { negative := !b.negative, magnitude := b.magnitude }

/-- `value.rs` 62–77: the mixed-sign case of `checked_add`. -/
def Big.addMixed (a b : Big) : Big :=
  if b.magnitude ≤ a.magnitude then
    if a.magnitude - b.magnitude = 0 then .zero
    else { negative := a.isNegative, magnitude := a.magnitude - b.magnitude }
  else
    if b.magnitude - a.magnitude = 0 then .zero
    else { negative := b.isNegative, magnitude := b.magnitude - a.magnitude }

/-- `value.rs` 48–79: `checked_add`. -/
def Big.checkedAdd (a b : Big) : Option Big :=
  match a.isNegative, b.isNegative with
  | false, false => (addU a.magnitude b.magnitude).map .fromU
  | true, true =>
    (addU a.magnitude b.magnitude).map (fun m => { negative := true, magnitude := m })
  | _, _ => some (a.addMixed b)

/-- `value.rs` 81–91: `checked_mul`. -/
def Big.checkedMul (a b : Big) : Option Big :=
  match mulU a.magnitude b.magnitude with
  | none => none
  | some m =>
    if m = 0 then some .zero
    else some { negative := a.isNegative != b.isNegative, magnitude := m }

/-- `u128::to_string`: digits from the least significant, at most `fuel` of them. -/
def digitsRev : Nat → Nat → List Nat
  | 0, _ => []
  | fuel + 1, n => if n < 10 then [48 + n] else (48 + n % 10) :: digitsRev fuel (n / 10)

/-- `u128::to_string` (a number has no more digits than its value plus one). -/
def toDigits (n : Nat) : List Nat := (digitsRev (n + 1) n).reverse

/-- `value.rs` 93–100: `to_decimal_string` (`45` is `-`). -/
def Big.toDecimal (b : Big) : List Nat :=
  if b.isNegative then 45 :: toDigits b.magnitude else toDigits b.magnitude

/-- One turn of the loop of `u128::from_str`: `checked_mul(10)`, `checked_add(digit)`. -/
def parseStep (acc c : Nat) : Option Nat :=
  if 48 ≤ c ∧ c ≤ 57 then (mulU acc 10).bind (fun x => addU x (c - 48)) else none

/-- The loop of `u128::from_str` after the sign. -/
def parseLoop (acc : Nat) (cs : List Nat) : Option Nat := cs.foldlM parseStep acc

/-- `u128::from_str`: an optional `+` (`43`), then at least one digit. -/
def parseU128 : List Nat → Option Nat
  | [] => none
  | [c] => if c = 43 then none else parseLoop 0 [c]
  | c :: cs => if c = 43 then parseLoop 0 cs else parseLoop 0 (c :: cs)

/-- `exec.rs` 3168–3174: evaluation of a BigInt literal from its decimal digits. -/
def evalLit (ds : List Nat) : Option Big := (parseU128 ds).map .fromU

/-- BigInt expressions the evaluator supports. -/
inductive BigExpr where
  | lit (ds : List Nat)
  | neg (e : BigExpr)
  | add (a b : BigExpr)
  | mul (a b : BigExpr)
  /-- `++` -/
  | inc (e : BigExpr)
  /-- `--` -/
  | dec (e : BigExpr)
deriving Repr

/-- The evaluator: `none` is the range error. -/
def BigExpr.eval : BigExpr → Option Big
  | .lit ds => evalLit ds
  | .neg e =>
    match e.eval with
    | none => none
    | some a => some a.negate
  | .add x y =>
    match x.eval, y.eval with
    | some a, some b => a.checkedAdd b
    | _, _ => none
  | .mul x y =>
    match x.eval, y.eval with
    | some a, some b => a.checkedMul b
    | _, _ => none
  | .inc e =>
    match e.eval with
    | none => none
    | some a => a.checkedAdd (.fromU 1)
  | .dec e =>
    match e.eval with
    | none => none
    | some a => a.checkedAdd (Big.negate (.fromU 1))

/-! ## Strings -/

/-- `string.rs` 8–12: `JsString`. -/
structure JsString where
  units : List Nat
  hash : Nat
deriving DecidableEq, Repr

/-- `string.rs` 96–102: one unit, little-endian bytes, FNV-1a on 64 bits. -/
def hashUnit (h u : Nat) : Nat :=
  let h1 := ((h ^^^ (u % 256)) * 0x100000001B3) % 2 ^ 64
  ((h1 ^^^ (u / 256)) * 0x100000001B3) % 2 ^ 64

/-- `string.rs` 94–103: `stable_hash64`. -/
def stableHash (us : List Nat) : Nat := us.foldl hashUnit 0xcbf29ce484222325

/-- `string.rs` 19–25: `from_u16_vec` (and `from_code_units`). -/
def JsString.ofUnits (us : List Nat) : JsString := { units := us, hash := stableHash us }

/-- `string.rs` 59–63: `PartialEq`. -/
def JsString.eq (a b : JsString) : Bool := a.units == b.units

/-- `<[u16] as Ord>::cmp`: the first difference decides, then the length. -/
def cmpSlice : List Nat → List Nat → Ordering
  | [], [] => .eq
  | [], _ :: _ => .lt
  | _ :: _, [] => .gt
  | a :: as, b :: bs => if a < b then .lt else if b < a then .gt else cmpSlice as bs

/-- `string.rs` 73–77: `Ord::cmp`. -/
def JsString.cmp (a b : JsString) : Ordering := cmpSlice a.units b.units

/-- `char::encode_utf16`. -/
def encodeChar (c : Nat) : List Nat :=
  if c < 0x10000 then [c]
  else [0xD800 + (c - 0x10000) / 0x400, 0xDC00 + (c - 0x10000) % 0x400]

/-- `str::encode_utf16`. -/
def encodeUtf16 (s : List Nat) : List Nat := s.flatMap encodeChar

/-- `module_request.rs` 17–31: the loop of `cmp_utf16` over two iterators. -/
def cmpIter : List Nat → List Nat → Ordering
  | a :: as, b :: bs =>
    match compare a b with
    | .eq => cmpIter as bs
    | o => o
  | [], _ :: _ => .lt
  | _ :: _, [] => .gt
  | [], [] => .eq

/-- `module_request.rs` 13–32: `cmp_utf16`. -/
def cmpUtf16 (a b : List Nat) : Ordering := cmpIter (encodeUtf16 a) (encodeUtf16 b)

/-! ## Source positions -/

/-- `char::len_utf8`. -/
def utf8Len (c : Nat) : Nat :=
  if c < 0x80 then 1 else if c < 0x800 then 2 else if c < 0x10000 then 3 else 4

/-- The length of a text in bytes. -/
def bytes : List Nat → Nat
  | [] => 0
  | c :: cs => utf8Len c + bytes cs

/-- `source.rs` 18–25: the loop of `SourceText::new`; `len` is the length of the text, `idx` the byte
offset reached. -/
def lineStartsFrom (len : Nat) : Nat → List Nat → List Nat
  | _, [] => []
  | idx, c :: cs =>
    if c = 10 then
      if min (idx + 1) len < 2 ^ 32 then
        min (idx + 1) len :: lineStartsFrom len (idx + utf8Len c) cs
      else lineStartsFrom len (idx + utf8Len c) cs
    else lineStartsFrom len (idx + utf8Len c) cs

/-- `source.rs` 13–32: the `line_starts` of `SourceText::new`. -/
def lineStarts (text : List Nat) : List Nat := 0 :: lineStartsFrom (bytes text) 0 text

/-- `str::is_char_boundary`: the offset of a character or of the end. -/
def isBoundary : List Nat → Nat → Bool
  | [], o => o == 0
  | c :: cs, o => o == 0 || (utf8Len c ≤ o && isBoundary cs (o - utf8Len c))

/-- `source.rs` 41–43: move back to a character boundary. -/
def clampDown (text : List Nat) : Nat → Nat
  | 0 => 0
  | o + 1 => if isBoundary text (o + 1) then o + 1 else clampDown text o

/-- `slice::binary_search` on `low..high`: `inl` is `Ok`, `inr` is `Err`. -/
def bsearch (key : Nat) (l : List Nat) : Nat → Nat → Nat → Nat ⊕ Nat
  | 0, low, _ => .inr low
  | fuel + 1, low, high =>
    if low < high then
      match l[low + (high - low) / 2]? with
      | none => .inr low
      | some x =>
        if x < key then bsearch key l fuel (low + (high - low) / 2 + 1) high
        else if key < x then bsearch key l fuel low (low + (high - low) / 2)
        else .inl (low + (high - low) / 2)
    else .inr low

/-- `&text[n..]`: `none` if `n` is not a character boundary. -/
def dropBytes : List Nat → Nat → Option (List Nat)
  | cs, 0 => some cs
  | [], _ + 1 => none
  | c :: cs, n + 1 => if utf8Len c ≤ n + 1 then dropBytes cs (n + 1 - utf8Len c) else none

/-- `&text[..n]`: `none` if `n` is not a character boundary. -/
def takeBytes : List Nat → Nat → Option (List Nat)
  | _, 0 => some []
  | [], _ + 1 => none
  | c :: cs, n + 1 =>
    if utf8Len c ≤ n + 1 then (takeBytes cs (n + 1 - utf8Len c)).map (c :: ·) else none

/-- `&text[from..to]` (`none`: the slice panics). -/
def slice (text : List Nat) (f t : Nat) : Option (List Nat) :=
  if t < f then none
  else
    match dropBytes text f with
    | none => none
    | some cs => takeBytes cs (t - f)

/-- `source.rs` 45–50: the line index. -/
def lineIndex (starts : List Nat) (offset : Nat) : Nat :=
  match bsearch offset starts starts.length 0 starts.length with
  | .inl i => i
  | .inr i => i - 1

/-- `source.rs` 52–61: the start of the line and the column; `none` is a panic (a slice that is not on
boundaries, or an overflowing `+ 1` on `u32`). -/
def lineColAt (text starts : List Nat) (offset : Nat) : Option (Nat × Nat) :=
  match slice text (starts.getD (lineIndex starts offset) (min (bytes text) (2 ^ 32 - 1))) offset with
  | none => none
  | some cs =>
    if lineIndex starts offset + 1 < 2 ^ 32 ∧ cs.length + 1 < 2 ^ 32 then
      some (lineIndex starts offset + 1, cs.length + 1)
    else none

/-- `source.rs` 37–63: `line_col`. -/
def lineCol (text : List Nat) (offset : Nat) : Option (Nat × Nat) :=
  lineColAt text (lineStarts text) (clampDown text (min offset (bytes text)))

end Verif.Values
