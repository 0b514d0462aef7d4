import Verif.Eval.Float
import Verif.Escape.Model
import Verif.Values.Model
/-!
# `optimize-js/src/eval/consteval.rs`

A string is the list of its code points. A panic of the code is `none`.
-/

namespace Verif.Eval
open Verif.Harness (cmpList)

/-- `il/inst.rs` 11–18: `Const`. -/
inductive Const where
  | bigint (v : Int)
  | bool (b : Bool)
  | null
  | num (x : F64)
  | str (s : List Nat)
  | undef
deriving DecidableEq

/-- `il/inst.rs`: `BinOp`, the operators the evaluator handles. -/
inductive BinOp where
  | add | bitAnd | bitOr | bitXor | div | exp | geq | gt | leq | looseEq | lt | mod | mul
  | notLooseEq | notStrictEq | shl | shr | ushr | strictEq | sub
  | getProp
deriving DecidableEq

/-- `il/inst.rs`: `UnOp`. -/
inductive UnOp where
  | bitNot | neg | not | plus | typeof | void
deriving DecidableEq

/-- Library functions that the model does not define: the shortest digits of a double (`ryu`, with the
place of the decimal point: `0.d₁d₂… * 10 ^ n`), `f64::powf`, and the functions of `Math` that
ECMAScript leaves to the implementation. -/
structure Lib where
  digits : F64 → List Nat × Int
  pow : F64 → F64 → F64
  math : List Nat → F64 → Option F64

/-! ## Strings to numbers -/

/-- `parse-js/src/char.rs` 61–85: `ECMASCRIPT_LINE_TERMINATORS` and `ECMASCRIPT_WHITESPACE`. -/
def lineTerminators : List Nat := [0x0A, 0x0D, 0x2028, 0x2029]

def whitespace : List Nat :=
  [0x09, 0x0B, 0x0C, 0x20, 0xA0, 0x1680, 0x2000, 0x2001, 0x2002, 0x2003, 0x2004, 0x2005, 0x2006, 0x2007,
    0x2008, 0x2009, 0x200A, 0x202F, 0x205F, 0x3000, 0xFEFF]

/-- `consteval.rs` 26–28: `is_ecmascript_whitespace`. -/
def isSpace (c : Nat) : Bool := whitespace.contains c || lineTerminators.contains c

/-- `consteval.rs` 30–32: `trim_js_whitespace`. -/
def trim (s : List Nat) : List Nat := ((s.dropWhile isSpace).reverse.dropWhile isSpace).reverse

/-- `char::to_digit`. -/
def toDigit (radix c : Nat) : Option Nat :=
  let d :=
    if 48 ≤ c ∧ c ≤ 57 then c - 48
    else if 97 ≤ c ∧ c ≤ 122 then c - 97 + 10
    else if 65 ≤ c ∧ c ≤ 90 then c - 65 + 10
    else radix
  if d < radix then some d else none

/-- `BigInt::parse_bytes` on digits. -/
def parseDigits (radix : Nat) (ds : List Nat) : Nat :=
  ds.foldl (fun a c => a * radix + (toDigit radix c).getD 0) 0

/-- `consteval.rs` 44–52: `parse_int_digits_to_bigint`. -/
def parseIntDigits (ds : List Nat) (radix : Nat) : Option Nat :=
  if ds = [] ∨ ds.contains 95 then none
  else if ds.all (fun c => (toDigit radix c).isSome) then some (parseDigits radix ds)
  else none

/-- `starts_with("0x") || starts_with("0X")` and its variants, with the rest. -/
def hasPrefix (lower upper : Nat) : List Nat → Option (List Nat)
  | 48 :: c :: cs => if c = lower ∨ c = upper then some cs else none
  | _ => none

/-- `strip_prefix('+')` and `strip_prefix('-')`: whether there is a sign, whether it is a minus, and the
rest. -/
def stripSign : List Nat → Bool × Bool × List Nat
  | 43 :: cs => (true, false, cs)
  | 45 :: cs => (true, true, cs)
  | cs => (false, false, cs)

/-- `consteval.rs` 69–74: the radix. -/
def splitRadix (body : List Nat) : Nat × List Nat :=
  match hasPrefix 98 66 body with
  | some r => (2, r)
  | none =>
    match hasPrefix 111 79 body with
    | some r => (8, r)
    | none =>
      match hasPrefix 120 88 body with
      | some r => (16, r)
      | none => (10, body)

/-- `consteval.rs` 54–80: `parse_bigint`. -/
def parseBigint (raw : List Nat) : Option Int :=
  let trimmed := trim raw
  if trimmed = [] then none
  else
    let (_, neg, body) := stripSign trimmed
    if body = [] then none
    else
      match parseIntDigits (splitRadix body).2 (splitRadix body).1 with
      | none => none
      | some v => some (if neg then -(v : Int) else v)

def isDigit (c : Nat) : Bool := decide (48 ≤ c ∧ c ≤ 57)

theorem dropWhile_length (p : Nat → Bool) : ∀ l : List Nat, (l.dropWhile p).length ≤ l.length
  | [] => Nat.le_refl _
  | c :: cs => by
    rw [List.dropWhile_cons]
    split
    · exact Nat.le_succ_of_le (dropWhile_length p cs)
    · exact Nat.le_refl _

theorem stripSign_length (l : List Nat) : (stripSign l).2.2.length ≤ l.length := by
  unfold stripSign
  split <;> simp

/-- `consteval.rs` 136–176: the loop that checks a decimal number; `false` is a return of NaN. -/
def scan : List Nat → (digit dot exp : Bool) → Bool
  | [], digit, _, _ => digit
  | c :: cs, digit, dot, exp =>
    if isDigit c then scan cs (digit || !exp) dot exp
    else if c = 46 then
      if dot || exp then false else scan cs digit true exp
    else if c = 101 ∨ c = 69 then
      if exp || !digit then false
      else
        let rest := (stripSign cs).2.2
        if rest.takeWhile isDigit = [] then false
        else scan (rest.dropWhile isDigit) digit dot true
    else false
termination_by cs => cs.length
decreasing_by
  · simp
  · simp
  · simp only [List.length_cons]
    have h1 := dropWhile_length isDigit (stripSign cs).2.2
    have h2 := stripSign_length cs
    omega

/-- `str::parse::<f64>` on unsigned decimal numbers, with the grammar its documentation gives: the
digits without the point, and the power of ten. -/
def parseDecimal (s : List Nat) : Option (Nat × Int) :=
  let int := s.takeWhile isDigit
  let r1 := s.dropWhile isDigit
  let frac := match r1 with
    | 46 :: t => t.takeWhile isDigit
    | _ => []
  let r2 := match r1 with
    | 46 :: t => t.dropWhile isDigit
    | r => r
  if int = [] ∧ frac = [] then none
  else
    let m := parseDigits 10 (int ++ frac)
    match r2 with
    | [] => some (m, -(frac.length : Int))
    | c :: t =>
      if c = 101 ∨ c = 69 then
        let (_, neg, es) := stripSign t
        if es ≠ [] ∧ es.all isDigit then
          let e : Int := parseDigits 10 es
          some (m, (if neg then -e else e) - frac.length)
        else none
      else none

/-- `"Infinity"`. -/
def infinityText : List Nat := [73, 110, 102, 105, 110, 105, 116, 121]

/-- `consteval.rs` 110–131. -/
def intOrNan (o : Option Nat) : F64 :=
  match o with
  | some v => ofInt v
  | none => .nan

/-- `consteval.rs` 87–178: `coerce_str_to_num`. `sign * v` is modelled as rounding with the sign. -/
def coerceStr (s : List Nat) : F64 :=
  let raw := trim s
  if raw = [] then .fin false 0
  else
    let (signed, neg, body) := stripSign raw
    if body = [] then .nan
    else if body = infinityText then .inf neg
    else
      match hasPrefix 120 88 body with
      | some ds => if signed then .nan else intOrNan (parseIntDigits ds 16)
      | none =>
        match hasPrefix 98 66 body with
        | some ds => if signed then .nan else intOrNan (parseIntDigits ds 2)
        | none =>
          match hasPrefix 111 79 body with
          | some ds => if signed then .nan else intOrNan (parseIntDigits ds 8)
          | none =>
            if body.contains 95 then .nan
            else if scan body false false false then
              match parseDecimal body with
              | some (m, e) => ofDecimal neg m e
              | none => .nan
            else .nan

/-! ## Conversions -/

/-- `consteval.rs` 181–191: `coerce_to_num`; `none` is the panic. -/
def coerceNum : Const → Option F64
  | .bigint _ => none
  | .bool b => some (if b then .fin false scale else .fin false 0)
  | .null => some (.fin false 0)
  | .num x => some x
  | .str s => some (coerceStr s)
  | .undef => some .nan

/-- `f64::rem_euclid`. -/
def remEuclid (a b : F64) : F64 :=
  let r := a.rem b
  if r.cmp (.fin false 0) = some .lt then r.add b.abs else r

/-- `as u32` on a double: truncated, and clamped to the range of `u32`. -/
def asU32 : F64 → BitVec 32
  | .fin false m => BitVec.ofNat 32 (min (m / scale) (2 ^ 32 - 1))
  | .inf false => BitVec.ofNat 32 (2 ^ 32 - 1)
  | _ => 0

/-- `consteval.rs` 194–209: `coerce_to_uint32`. -/
def coerceU32 (v : Const) : Option (BitVec 32) :=
  match coerceNum v with
  | none => none
  | some n =>
    if n.isFinite = false ∨ n.eq (.fin false 0) then some 0
    else some (asU32 (remEuclid n.trunc (.fin false (2 ^ 32 * scale))))

/-- `as f64` on an `i32`. -/
def i32Num (b : BitVec 32) : F64 := ofInt b.toInt

/-- `as f64` on a `u32`. -/
def u32Num (b : BitVec 32) : F64 := ofInt b.toNat

/-- `consteval.rs` 212–221: `coerce_to_bool`. -/
def coerceBool : Const → Bool
  | .bigint v => v == 0
  | .bool b => b
  | .null => false
  | .num x => !x.isNan && !x.eq (.fin false 0)
  | .str s => s != []
  | .undef => false

/-! ## Comparisons -/

/-- UTF-8. -/
def utf8 (c : Nat) : List Nat :=
  if c < 0x80 then [c]
  else if c < 0x800 then [0xC0 + c / 0x40, 0x80 + c % 0x40]
  else if c < 0x10000 then [0xE0 + c / 0x1000, 0x80 + c / 0x40 % 0x40, 0x80 + c % 0x40]
  else [0xF0 + c / 0x40000, 0x80 + c / 0x1000 % 0x40, 0x80 + c / 0x40 % 0x40, 0x80 + c % 0x40]

/-- `str::cmp`: the order of the bytes. -/
def cmpUtf8 (a b : List Nat) : Ordering :=
  cmpList (fun x y : Nat => compare x y) (a.flatMap utf8) (b.flatMap utf8)

/-- `consteval.rs` 225–242: `js_cmp`; `none` is a panic. -/
def jsCmp (a b : Const) : Option (Option Ordering) :=
  match a, b with
  | .str a, .str b => some (some (cmpUtf8 a b))
  | .str a, .bigint b => some ((parseBigint a).map (fun a => compare a b))
  | .bigint a, .str b => some ((parseBigint b).map (fun b => compare a b))
  | .bigint a, .bigint b => some (some (compare a b))
  | a, b =>
    match coerceNum a, coerceNum b with
    | some x, some y => some (x.cmp y)
    | _, _ => none

/-- `consteval.rs` 276–282: `js_strict_eq`. The derived equality of `Const` compares numbers with
`JsNumber::eq` (`parse-js/src/num.rs` 60–67), where NaN equals NaN. -/
def jsStrictEq (a b : Const) : Bool :=
  match a, b with
  | .num x, .num y => if x.isNan then false else if y.isNan then false else x.eq y
  | a, b => decide (a = b)

/-- `std::mem::discriminant`. -/
def discriminant : Const → Nat
  | .bigint _ => 0
  | .bool _ => 1
  | .null => 2
  | .num _ => 3
  | .str _ => 4
  | .undef => 5

/-- `consteval.rs` 257–274 without the two cases for booleans. -/
def looseEqBase (a b : Const) : Bool :=
  if discriminant a = discriminant b then jsStrictEq a b
  else
    match a, b with
    | .null, .undef => true
    | .undef, .null => true
    | .num l, .str r => l.eq (coerceStr r)
    | .str l, .num r => (coerceStr l).eq r
    | .bigint l, .str r => (parseBigint r).any (fun r => l == r)
    | .str l, .bigint r => (parseBigint l).any (fun l => l == r)
    | .bigint l, .num r => r.isFinite && (ofInt l).eq r
    | .num l, .bigint r => l.isFinite && l.eq (ofInt r)
    | _, _ => false

/-- `*l as u8 as f64`. -/
def boolNum (b : Bool) : Const := .num (if b then .fin false scale else .fin false 0)

/-- `consteval.rs` 257–274: `js_loose_eq`. The recursion on a boolean is at most two calls deep. -/
def jsLooseEq (a b : Const) : Bool :=
  match a, b with
  | .bool x, .bool y => jsStrictEq (.bool x) (.bool y)
  | .bool x, b => looseEqBase (boolNum x) b
  | a, .bool y => looseEqBase a (boolNum y)
  | a, b => looseEqBase a b

/-! ## Operators -/

/-- `consteval.rs` 244–246: `js_div`. -/
def jsDiv (a b : F64) : F64 := a.div b

/-- `consteval.rs` 248–254: `js_mod`. -/
def jsMod (a b : F64) : F64 :=
  if b.eq (.fin false 0) then .nan
  else
    match a with
    | .inf _ => .nan
    | a => a.rem b

/-- The decimal text of an integer. -/
def intText (v : Int) : List Nat :=
  if v < 0 then 45 :: Values.toDigits v.natAbs else Values.toDigits v.natAbs

/-- `ryu::Buffer::format_finite` from the digits and the place of the point; the crate is not part of
the repository. -/
def ryuText (ds : List Nat) (n : Int) : List Nat :=
  if (ds.length : Int) ≤ n ∧ n ≤ 16 then ds ++ List.replicate (n.toNat - ds.length) 48 ++ [46, 48]
  else if 0 < n ∧ n ≤ 16 then ds.take n.toNat ++ 46 :: ds.drop n.toNat
  else if -5 < n ∧ n ≤ 0 then [48, 46] ++ List.replicate (-n).toNat 48 ++ ds
  else
    match ds with
    | [d] => d :: 101 :: intText (n - 1)
    | d :: ds => d :: 46 :: ds ++ 101 :: intText (n - 1)
    | [] => []

/-- `strip_suffix(".0")`, or the text itself. -/
def stripPoint0 (t : List Nat) : List Nat :=
  match t.reverse with
  | 48 :: 46 :: r => r.reverse
  | _ => t

/-- `parse-js/src/num.rs` 27–58: `Display for JsNumber`. -/
def displayNum (L : Lib) : F64 → List Nat
  | .inf neg => if neg then [45, 49, 101, 52, 48, 48] else [49, 101, 52, 48, 48]
  | .nan => [78, 97, 78]
  | .fin neg m =>
    if m = 0 then (if neg then [45, 48] else [48])
    else
      let t := ryuText (L.digits (.fin false m)).1 (L.digits (.fin false m)).2
      stripPoint0 (if neg then 45 :: t else t)

/-- The operands of an arithmetic operator that is folded: numbers or strings. -/
def numOrStr : Const → Option F64
  | .num x => some x
  | .str s => some (coerceStr s)
  | _ => none

/-- `consteval.rs` 288–334: the arms for `Div`, `Exp`, `Mod`, `Mul` and `Sub`, which are alike. -/
def arith (f : F64 → F64 → F64) (a b : Const) : Option (Option Const) :=
  match numOrStr a, numOrStr b with
  | some x, some y => some (some (.num (f x y)))
  | _, _ => some none

/-- The arms for comparisons: `js_cmp(l, r).is_some_and(…)`. -/
def cmpArm (p : Ordering → Bool) (a b : Const) : Option (Option Const) :=
  match jsCmp a b with
  | none => none
  | some o => some (some (.bool (o.any p)))

/-- The arms for `BitAnd`, `BitOr`, `BitXor` and shifts. -/
def bitArm (f : BitVec 32 → BitVec 32 → F64) (a b : Const) : Option (Option Const) :=
  match coerceU32 a, coerceU32 b with
  | some x, some y => some (some (.num (f x y)))
  | _, _ => some none

/-- The shift count: `coerce_to_uint32(r)? & 0x1f`. -/
def shiftBy (y : BitVec 32) : Nat := (y &&& 0x1f#32).toNat

/-- `consteval.rs` 284–337: `maybe_eval_const_bin_expr`. The outer `none` is a panic, the inner one
means that the expression is not folded. -/
def evalBin (L : Lib) (op : BinOp) (a b : Const) : Option (Option Const) :=
  match op with
  | .add =>
    match a, b with
    | .num l, .num r => some (some (.num (l.add r)))
    | .num l, .str r => some (some (.str (displayNum L l ++ r)))
    | .str l, .num r => some (some (.str (l ++ displayNum L r)))
    | .str l, .str r => some (some (.str (l ++ r)))
    | _, _ => some none
  | .div => arith jsDiv a b
  | .bitAnd => bitArm (fun x y => i32Num (x &&& y)) a b
  | .bitOr => bitArm (fun x y => i32Num (x ||| y)) a b
  | .bitXor => bitArm (fun x y => i32Num (x ^^^ y)) a b
  | .exp => arith L.pow a b
  | .geq => cmpArm (fun o => o.isGE) a b
  | .gt => cmpArm (fun o => o.isGT) a b
  | .leq => cmpArm (fun o => o.isLE) a b
  | .looseEq => some (some (.bool (jsLooseEq a b)))
  | .lt => cmpArm (fun o => o.isLT) a b
  | .mod => arith jsMod a b
  | .mul => arith F64.mul a b
  | .notLooseEq => some (some (.bool (!jsLooseEq a b)))
  | .notStrictEq => some (some (.bool (!jsStrictEq a b)))
  | .shl => bitArm (fun x y => i32Num (x <<< shiftBy y)) a b
  | .shr => bitArm (fun x y => i32Num (x.sshiftRight (shiftBy y))) a b
  | .ushr => bitArm (fun x y => u32Num (x >>> shiftBy y)) a b
  | .strictEq => some (some (.bool (jsStrictEq a b)))
  | .sub => arith F64.sub a b
  | .getProp => some none

/-- The texts of `typeof`: "bigint", "boolean", "object", "number", "string", "undefined". -/
def typeofText : Const → List Nat
  | .bigint _ => [98, 105, 103, 105, 110, 116]
  | .bool _ => [98, 111, 111, 108, 101, 97, 110]
  | .null => [111, 98, 106, 101, 99, 116]
  | .num _ => [110, 117, 109, 98, 101, 114]
  | .str _ => [115, 116, 114, 105, 110, 103]
  | .undef => [117, 110, 100, 101, 102, 105, 110, 101, 100]

/-- `consteval.rs` 339–357: `maybe_eval_const_un_expr`; `none` means that the expression is not folded. -/
def evalUn (op : UnOp) (a : Const) : Option Const :=
  match op with
  | .bitNot => (coerceU32 a).map fun x => .num (i32Num (~~~ x))
  | .neg =>
    match a with
    | .num l => some (.num l.neg)
    | _ => none
  | .not => some (.bool (!coerceBool a))
  | .plus => (coerceNum a).map .num
  | .typeof => some (.str (typeofText a))
  | .void => some .undef

/-- The functions of `maybe_eval_const_builtin_call` that the model defines. -/
inductive MathFn where
  | abs | ceil | floor | round | trunc
deriving DecidableEq

/-- `consteval.rs` 359–385: `maybe_eval_const_builtin_call` for these functions of a number. -/
def evalMath : MathFn → F64 → F64
  | .abs, x => x.abs
  | .ceil, x => x.ceil
  | .floor, x => x.floor
  | .round, x => x.roundAway
  | .trunc, x => x.trunc

end Verif.Eval
