import Verif.Eval.Model
/-!
# What ECMA-262 says about operators on constants

Written from ECMA-262, without the functions of the evaluator. The values are those of the type `Const`;
`F64` is the Number type with its exact arithmetic (6.1.6.1), strings are lists of code points.
-/

namespace Verif.Eval

/-! ## StringToNumber (7.1.4.1) and StringToBigInt (7.1.14) -/

/-- StrWhiteSpaceChar: WhiteSpace or LineTerminator (12.2, 12.3). -/
def SpaceChar (c : Nat) : Prop :=
  c = 0x09 ∨ c = 0x0B ∨ c = 0x0C ∨ c = 0xFEFF ∨
  (c = 0x20 ∨ c = 0xA0 ∨ c = 0x1680 ∨ (0x2000 ≤ c ∧ c ≤ 0x200A) ∨ c = 0x202F ∨ c = 0x205F ∨ c = 0x3000) ∨
  c = 0x0A ∨ c = 0x0D ∨ c = 0x2028 ∨ c = 0x2029

def Blank (s : List Nat) : Prop := ∀ c ∈ s, SpaceChar c

/-- A digit and its value. -/
inductive Digit : (radix c d : Nat) → Prop where
  | dec {radix c : Nat} : 48 ≤ c → c ≤ 57 → c - 48 < radix → Digit radix c (c - 48)
  | lower {radix c : Nat} : 97 ≤ c → c ≤ 102 → c - 97 + 10 < radix → Digit radix c (c - 97 + 10)
  | upper {radix c : Nat} : 65 ≤ c → c ≤ 70 → c - 65 + 10 < radix → Digit radix c (c - 65 + 10)

/-- One or more digits and the number they stand for. -/
inductive Digits (radix : Nat) : List Nat → Nat → Prop where
  | one {c d : Nat} : Digit radix c d → Digits radix [c] d
  | more {cs : List Nat} {c d n : Nat} : Digits radix cs n → Digit radix c d →
      Digits radix (cs ++ [c]) (n * radix + d)

/-- NonDecimalIntegerLiteral, without separators. -/
inductive NonDecimal : List Nat → Nat → Prop where
  | bin {c : Nat} {ds : List Nat} {n : Nat} : c = 98 ∨ c = 66 → Digits 2 ds n → NonDecimal (48 :: c :: ds) n
  | oct {c : Nat} {ds : List Nat} {n : Nat} : c = 111 ∨ c = 79 → Digits 8 ds n → NonDecimal (48 :: c :: ds) n
  | hex {c : Nat} {ds : List Nat} {n : Nat} : c = 120 ∨ c = 88 → Digits 16 ds n → NonDecimal (48 :: c :: ds) n

/-- An optional sign; `true` is minus. -/
inductive Sign : List Nat → Bool → Prop where
  | none : Sign [] false
  | plus : Sign [43] false
  | minus : Sign [45] true

/-- An optional ExponentPart and its value. -/
inductive Exponent : List Nat → Int → Prop where
  | none : Exponent [] 0
  | some {c : Nat} {s ds : List Nat} {neg : Bool} {n : Nat} : c = 101 ∨ c = 69 → Sign s neg →
      Digits 10 ds n → Exponent (c :: s ++ ds) (if neg then -(n : Int) else n)

/-- StrUnsignedDecimalLiteral other than Infinity; its value is `m * 10 ^ e`. -/
inductive Unsigned : List Nat → Nat → Int → Prop where
  | int {ds ex : List Nat} {n : Nat} {e : Int} : Digits 10 ds n → Exponent ex e → Unsigned (ds ++ ex) n e
  | point {ds ex : List Nat} {n : Nat} {e : Int} : Digits 10 ds n → Exponent ex e →
      Unsigned (ds ++ 46 :: ex) n e
  | frac {ds fs ex : List Nat} {n f : Nat} {e : Int} : Digits 10 ds n → Digits 10 fs f → Exponent ex e →
      Unsigned (ds ++ 46 :: fs ++ ex) (n * 10 ^ fs.length + f) (e - fs.length)
  | dot {fs ex : List Nat} {f : Nat} {e : Int} : Digits 10 fs f → Exponent ex e →
      Unsigned (46 :: fs ++ ex) f (e - fs.length)

/-- StrNumericLiteral and the Number it stands for. -/
inductive NumericLiteral : List Nat → F64 → Prop where
  | nonDecimal {s : List Nat} {n : Nat} : NonDecimal s n → NumericLiteral s (ofInt n)
  | infinity {s : List Nat} {neg : Bool} : Sign s neg →
      NumericLiteral (s ++ [73, 110, 102, 105, 110, 105, 116, 121]) (.inf neg)
  | decimal {s body : List Nat} {neg : Bool} {m : Nat} {e : Int} : Sign s neg → Unsigned body m e →
      NumericLiteral (s ++ body) (ofDecimal neg m e)

/-- StringNumericLiteral (with white space around) and its Number. -/
inductive StringNumeric : List Nat → F64 → Prop where
  | empty {s : List Nat} : Blank s → StringNumeric s (.fin false 0)
  | lit {a l b : List Nat} {x : F64} : Blank a → NumericLiteral l x → Blank b → StringNumeric (a ++ l ++ b) x

/-- StringToNumber: what is not a StringNumericLiteral is NaN. -/
def StringToNumber (s : List Nat) (x : F64) : Prop :=
  StringNumeric s x ∨ (¬ ∃ y, StringNumeric s y) ∧ x = .nan

/-- StrIntegerLiteral and its value. -/
inductive IntegerLiteral : List Nat → Int → Prop where
  | nonDecimal {s : List Nat} {n : Nat} : NonDecimal s n → IntegerLiteral s n
  | decimal {s ds : List Nat} {neg : Bool} {n : Nat} : Sign s neg → Digits 10 ds n →
      IntegerLiteral (s ++ ds) (if neg then -(n : Int) else n)

/-- StringIntegerLiteral and its value; an empty one is zero. -/
inductive StringInteger : List Nat → Int → Prop where
  | empty {s : List Nat} : Blank s → StringInteger s 0
  | lit {a l b : List Nat} {v : Int} : Blank a → IntegerLiteral l v → Blank b → StringInteger (a ++ l ++ b) v

/-- StringToBigInt; `none` is undefined. -/
def StringToBigInt (s : List Nat) (o : Option Int) : Prop :=
  (∃ v, StringInteger s v ∧ o = some v) ∨ (¬ ∃ v, StringInteger s v) ∧ o = none

/-! ## Conversions (7.1) -/

/-- ToBoolean is false for these values and true for all others. -/
def Falsy (v : Const) : Prop :=
  v = .undef ∨ v = .null ∨ v = .bool false ∨ v = .num (.fin false 0) ∨ v = .num (.fin true 0) ∨
    v = .num .nan ∨ v = .bigint 0 ∨ v = .str []

/-- The Number 1. -/
def one : F64 := .fin false scale

/-- ToNumber; a BigInt has none (TypeError). -/
inductive ToNumber : Const → F64 → Prop where
  | num {x : F64} : ToNumber (.num x) x
  | undef : ToNumber .undef .nan
  | null : ToNumber .null (.fin false 0)
  | false_ : ToNumber (.bool false) (.fin false 0)
  | true_ : ToNumber (.bool true) one
  | str {s : List Nat} {x : F64} : StringToNumber s x → ToNumber (.str s) x

/-- The integer part of a Number, towards zero. -/
inductive Truncated : F64 → Int → Prop where
  | fin {neg : Bool} {m : Nat} : Truncated (.fin neg m) (if neg then -((m / scale : Nat) : Int) else (m / scale : Nat))

/-- ToUint32 (7.1.7). -/
inductive ToUint32 : F64 → Int → Prop where
  | zero {x : F64} : x.isFinite = false → ToUint32 x 0
  | int {x : F64} {n u k : Int} : Truncated x n → 0 ≤ u → u < 2 ^ 32 → n = u + k * 2 ^ 32 → ToUint32 x u

/-- ToInt32 (7.1.6). -/
inductive ToInt32 : F64 → Int → Prop where
  | small {x : F64} {u : Int} : ToUint32 x u → u < 2 ^ 31 → ToInt32 x u
  | large {x : F64} {u : Int} : ToUint32 x u → 2 ^ 31 ≤ u → ToInt32 x (u - 2 ^ 32)

/-- The Number for a small integer. -/
def number (v : Int) : F64 := .fin (decide (v < 0)) (v.natAbs * scale)

/-! ## Comparison (7.2) -/

/-- Number::equal: NaN equals nothing, the zeros are equal. -/
def NumEqual (a b : F64) : Prop :=
  a ≠ .nan ∧ b ≠ .nan ∧ (a = b ∨ ((a = .fin false 0 ∨ a = .fin true 0) ∧ (b = .fin false 0 ∨ b = .fin true 0)))

/-- IsStrictlyEqual. -/
inductive StrictEq : Const → Const → Prop where
  | num {a b : F64} : NumEqual a b → StrictEq (.num a) (.num b)
  | bigint {v : Int} : StrictEq (.bigint v) (.bigint v)
  | bool {b : Bool} : StrictEq (.bool b) (.bool b)
  | str {s : List Nat} : StrictEq (.str s) (.str s)
  | null : StrictEq .null .null
  | undef : StrictEq .undef .undef

/-- The mathematical value of a finite Number is an integer. -/
def HasValue (x : F64) (v : Int) : Prop := ∃ neg m, x = .fin neg m ∧ F64.units neg m = v * scale

/-- IsLooselyEqual. -/
inductive LooseEq : Const → Const → Prop where
  | strict {a b : Const} : StrictEq a b → LooseEq a b
  | nullUndef : LooseEq .null .undef
  | undefNull : LooseEq .undef .null
  | numStr {x y : F64} {s : List Nat} : StringToNumber s y → NumEqual x y → LooseEq (.num x) (.str s)
  | strNum {x y : F64} {s : List Nat} : StringToNumber s y → NumEqual y x → LooseEq (.str s) (.num x)
  | bigStr {v : Int} {s : List Nat} : StringToBigInt s (some v) → LooseEq (.bigint v) (.str s)
  | strBig {v : Int} {s : List Nat} : StringToBigInt s (some v) → LooseEq (.str s) (.bigint v)
  | boolL {b : Bool} {x : F64} {c : Const} : ToNumber (.bool b) x → (∀ b', c ≠ .bool b') →
      LooseEq (.num x) c → LooseEq (.bool b) c
  | boolR {b : Bool} {x : F64} {c : Const} : ToNumber (.bool b) x → (∀ b', c ≠ .bool b') →
      LooseEq c (.num x) → LooseEq c (.bool b)
  | bigNum {v : Int} {x : F64} : HasValue x v → LooseEq (.bigint v) (.num x)
  | numBig {v : Int} {x : F64} : HasValue x v → LooseEq (.num x) (.bigint v)

/-- Number::lessThan on numbers other than NaN. -/
inductive NumLess : F64 → F64 → Prop where
  | fin {a b : Bool} {m n : Nat} : F64.units a m < F64.units b n → NumLess (.fin a m) (.fin b n)
  | toInf {a : Bool} {m : Nat} : NumLess (.fin a m) (.inf false)
  | fromInf {a : Bool} {m : Nat} : NumLess (.inf true) (.fin a m)
  | infs : NumLess (.inf true) (.inf false)

/-- The mathematical value of a BigInt is less than a Number, or the other way round. -/
def BigLessNum (v : Int) (x : F64) : Prop :=
  x = .inf false ∨ ∃ neg m, x = .fin neg m ∧ v * scale < F64.units neg m
def NumLessBig (x : F64) (v : Int) : Prop :=
  x = .inf true ∨ ∃ neg m, x = .fin neg m ∧ F64.units neg m < v * scale

/-- Whether a string comes before another: by code units of UTF-16. -/
inductive UnitsLess : List Nat → List Nat → Prop where
  | nil {u : Nat} {us : List Nat} : UnitsLess [] (u :: us)
  | head {u v : Nat} {us vs : List Nat} : u < v → UnitsLess (u :: us) (v :: vs)
  | tail {u : Nat} {us vs : List Nat} : UnitsLess us vs → UnitsLess (u :: us) (u :: vs)

open Classical in
/-- The truth of a proposition as a Boolean. -/
noncomputable def truth (p : Prop) : Bool := decide p

/-- IsLessThan; `none` is undefined. -/
inductive LessThan : Const → Const → Option Bool → Prop where
  | strs {a b : List Nat} : LessThan (.str a) (.str b) (some (truth (UnitsLess (Escape.utf16s a) (Escape.utf16s b))))
  | bigStr {v w : Int} {s : List Nat} : StringToBigInt s (some w) →
      LessThan (.bigint v) (.str s) (some (truth (v < w)))
  | bigStrBad {v : Int} {s : List Nat} : StringToBigInt s none → LessThan (.bigint v) (.str s) none
  | strBig {v w : Int} {s : List Nat} : StringToBigInt s (some w) →
      LessThan (.str s) (.bigint v) (some (truth (w < v)))
  | strBigBad {v : Int} {s : List Nat} : StringToBigInt s none → LessThan (.str s) (.bigint v) none
  | bigs {v w : Int} : LessThan (.bigint v) (.bigint w) (some (truth (v < w)))
  | nums {a b : Const} {x y : F64} : ¬ ((∃ s, a = .str s) ∧ ∃ s, b = .str s) → ToNumber a x → ToNumber b y →
      x ≠ .nan → y ≠ .nan → LessThan a b (some (truth (NumLess x y)))
  | nan {a b : Const} {x y : F64} : ¬ ((∃ s, a = .str s) ∧ ∃ s, b = .str s) → ToNumber a x → ToNumber b y →
      x = .nan ∨ y = .nan → LessThan a b none
  | bigNum {v : Int} {b : Const} {y : F64} : (∀ s, b ≠ .str s) → ToNumber b y → y ≠ .nan →
      LessThan (.bigint v) b (some (truth (BigLessNum v y)))
  | numBig {v : Int} {a : Const} {x : F64} : (∀ s, a ≠ .str s) → ToNumber a x → x ≠ .nan →
      LessThan a (.bigint v) (some (truth (NumLessBig x v)))
  | bigNan {v : Int} {b : Const} : (∀ s, b ≠ .str s) → ToNumber b .nan → LessThan (.bigint v) b none
  | nanBig {v : Int} {a : Const} : (∀ s, a ≠ .str s) → ToNumber a .nan → LessThan a (.bigint v) none

/-! ## Number::toString (6.1.6.1.20), from the digits -/

/-- The text for digits `ds` with the point at `n`. -/
def numberText (ds : List Nat) (n : Int) : List Nat :=
  if (ds.length : Int) ≤ n ∧ n ≤ 21 then ds ++ List.replicate (n.toNat - ds.length) 48
  else if 0 < n ∧ n ≤ 21 then ds.take n.toNat ++ 46 :: ds.drop n.toNat
  else if -6 < n ∧ n ≤ 0 then 48 :: 46 :: List.replicate (-n).toNat 48 ++ ds
  else
    let e := (if n - 1 < 0 then 45 else 43) :: Values.toDigits (n - 1).natAbs
    match ds with
    | [d] => d :: 101 :: e
    | d :: ds => d :: 46 :: ds ++ 101 :: e
    | [] => []

/-- Number::toString; `digits` gives the shortest digits that identify the number. -/
inductive NumToString (L : Lib) : F64 → List Nat → Prop where
  | nan : NumToString L .nan [78, 97, 78]
  | zero {neg : Bool} : NumToString L (.fin neg 0) [48]
  | inf : NumToString L (.inf false) [73, 110, 102, 105, 110, 105, 116, 121]
  | negInf : NumToString L (.inf true) [45, 73, 110, 102, 105, 110, 105, 116, 121]
  | pos {m : Nat} : m ≠ 0 →
      NumToString L (.fin false m) (numberText (L.digits (.fin false m)).1 (L.digits (.fin false m)).2)
  | neg {m : Nat} : m ≠ 0 →
      NumToString L (.fin true m) (45 :: numberText (L.digits (.fin false m)).1 (L.digits (.fin false m)).2)

/-! ## Operators (13.5–13.15) -/

/-- Number::remainder (6.1.6.1.6): with the sign of the dividend, and exact. -/
inductive Remainder : F64 → F64 → F64 → Prop where
  | nan {x y : F64} : x = .nan ∨ y = .nan ∨ (∃ s, x = .inf s) ∨ (∃ s, y = .fin s 0) → Remainder x y .nan
  | same {s t : Bool} {m : Nat} : Remainder (.fin s m) (.inf t) (.fin s m)
  | fin {s t : Bool} {m n q r : Nat} : n ≠ 0 → m = q * n + r → r < n → Remainder (.fin s m) (.fin t n) (.fin s r)

/-- Bit `i` of a 32-bit two's complement integer. -/
def bit (v : Int) (i : Nat) : Bool := (v % 2 ^ 32).toNat.testBit i

/-- A 32-bit integer whose bits are given by a function. -/
def HasBits (z : Int) (f : Nat → Bool) : Prop :=
  -2 ^ 31 ≤ z ∧ z < 2 ^ 31 ∧ ∀ i, i < 32 → bit z i = f i

/-- The operators on the Numbers `x` and `y`. -/
inductive NumOp : BinOp → F64 → F64 → F64 → Prop where
  | sub {x y : F64} : NumOp .sub x y (x.sub y)
  | mul {x y : F64} : NumOp .mul x y (x.mul y)
  | div {x y : F64} : NumOp .div x y (x.div y)
  | mod {x y z : F64} : Remainder x y z → NumOp .mod x y z
  | and {x y : F64} {a b z : Int} : ToInt32 x a → ToInt32 y b → HasBits z (fun i => bit a i && bit b i) →
      NumOp .bitAnd x y (number z)
  | or {x y : F64} {a b z : Int} : ToInt32 x a → ToInt32 y b → HasBits z (fun i => bit a i || bit b i) →
      NumOp .bitOr x y (number z)
  | xor {x y : F64} {a b z : Int} : ToInt32 x a → ToInt32 y b → HasBits z (fun i => bit a i != bit b i) →
      NumOp .bitXor x y (number z)
  | shl {x y : F64} {a b z k : Int} : ToInt32 x a → ToUint32 y b → -2 ^ 31 ≤ z → z < 2 ^ 31 →
      z = a * 2 ^ (b % 32).toNat + k * 2 ^ 32 → NumOp .shl x y (number z)
  | shr {x y : F64} {a b : Int} : ToInt32 x a → ToUint32 y b → NumOp .shr x y (number (a / 2 ^ (b % 32).toNat))
  | ushr {x y : F64} {a b : Int} : ToUint32 x a → ToUint32 y b →
      NumOp .ushr x y (number (a / 2 ^ (b % 32).toNat))

/-- The cases in which Number::exponentiate (6.1.6.1.3) gives NaN although C's `pow` gives one. -/
inductive ExpNan : F64 → F64 → Prop where
  | nan {x : F64} : ExpNan x .nan
  | inf {s : Bool} {x : F64} : x = one ∨ x = one.neg → ExpNan x (.inf s)

/-- What the operators give on constants. (`+` only for numbers and strings; operands that throw give
nothing.) -/
inductive JsBin (L : Lib) : BinOp → Const → Const → Const → Prop where
  | addNum {x y : F64} : JsBin L .add (.num x) (.num y) (.num (x.add y))
  | addStr {s t : List Nat} : JsBin L .add (.str s) (.str t) (.str (s ++ t))
  | addNumStr {x : F64} {s t : List Nat} : NumToString L x s → JsBin L .add (.num x) (.str t) (.str (s ++ t))
  | addStrNum {x : F64} {s t : List Nat} : NumToString L x t → JsBin L .add (.str s) (.num x) (.str (s ++ t))
  | num {op : BinOp} {a b : Const} {x y z : F64} : ToNumber a x → ToNumber b y → NumOp op x y z →
      JsBin L op a b (.num z)
  | strictEq {a b : Const} : JsBin L .strictEq a b (.bool (truth (StrictEq a b)))
  | notStrictEq {a b : Const} : JsBin L .notStrictEq a b (.bool (truth (¬ StrictEq a b)))
  | looseEq {a b : Const} : JsBin L .looseEq a b (.bool (truth (LooseEq a b)))
  | notLooseEq {a b : Const} : JsBin L .notLooseEq a b (.bool (truth (¬ LooseEq a b)))
  | lt {a b : Const} {r : Option Bool} : LessThan a b r → JsBin L .lt a b (.bool (r == some true))
  | gt {a b : Const} {r : Option Bool} : LessThan b a r → JsBin L .gt a b (.bool (r == some true))
  | leq {a b : Const} {r : Option Bool} : LessThan b a r → JsBin L .leq a b (.bool (r == some false))
  | geq {a b : Const} {r : Option Bool} : LessThan a b r → JsBin L .geq a b (.bool (r == some false))

/-- Unary operators (`-` on Numbers only). -/
inductive JsUn : UnOp → Const → Const → Prop where
  | plus {a : Const} {x : F64} : ToNumber a x → JsUn .plus a (.num x)
  | neg {a : Const} {x : F64} : ToNumber a x → JsUn .neg a (.num x.neg)
  | bitNot {a : Const} {x : F64} {v z : Int} : ToNumber a x → ToInt32 x v → HasBits z (fun i => !bit v i) →
      JsUn .bitNot a (.num (number z))
  | not {a : Const} : JsUn .not a (.bool (truth (Falsy a)))
  | void {a : Const} : JsUn .void a .undef
  | typeofUndef : JsUn .typeof .undef (.str [117, 110, 100, 101, 102, 105, 110, 101, 100])
  | typeofNull : JsUn .typeof .null (.str [111, 98, 106, 101, 99, 116])
  | typeofBool {b : Bool} : JsUn .typeof (.bool b) (.str [98, 111, 111, 108, 101, 97, 110])
  | typeofNum {x : F64} : JsUn .typeof (.num x) (.str [110, 117, 109, 98, 101, 114])
  | typeofBig {v : Int} : JsUn .typeof (.bigint v) (.str [98, 105, 103, 105, 110, 116])
  | typeofStr {s : List Nat} : JsUn .typeof (.str s) (.str [115, 116, 114, 105, 110, 103])

/-- Functions of `Math` (21.3.2): the result has the sign of the argument, is an integer, and is the
greatest below, the least above, the next towards zero, or the nearest (the greater of two). -/
inductive JsMath : MathFn → F64 → F64 → Prop where
  | absFin {s : Bool} {m : Nat} : JsMath .abs (.fin s m) (.fin false m)
  | absInf {s : Bool} : JsMath .abs (.inf s) (.inf false)
  | absNan : JsMath .abs .nan .nan
  | inf {f : MathFn} {s : Bool} : f ≠ .abs → JsMath f (.inf s) (.inf s)
  | nan {f : MathFn} : f ≠ .abs → JsMath f .nan .nan
  | floor {s : Bool} {m r : Nat} : scale ∣ r → F64.units s r ≤ F64.units s m →
      F64.units s m < F64.units s r + scale → JsMath .floor (.fin s m) (.fin s r)
  | ceil {s : Bool} {m r : Nat} : scale ∣ r → F64.units s m ≤ F64.units s r →
      F64.units s r < F64.units s m + scale → JsMath .ceil (.fin s m) (.fin s r)
  | trunc {s : Bool} {m r : Nat} : scale ∣ r → r ≤ m → m < r + scale → JsMath .trunc (.fin s m) (.fin s r)
  | round {s : Bool} {m r : Nat} : scale ∣ r → 2 * F64.units s r ≤ 2 * F64.units s m + scale →
      2 * F64.units s m + scale < 2 * F64.units s r + 2 * scale → JsMath .round (.fin s m) (.fin s r)

end Verif.Eval
