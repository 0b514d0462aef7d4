/-!
# Model of numbers and constants as keys

`/repo/parse-js/src/num.rs`: equality, order and hash of `JsNumber`;
`/repo/optimize-js/src/il/inst.rs` and `optpass_dvn.rs`: what is derived from them for `Const`, `Arg`
and `Val`, and the lookup of values that were computed before.
-/

namespace Verif.NumKey

/-- `f64`: its 64 bits. -/
structure F64 where
  bits : Nat
  lt : bits < 2 ^ 64
deriving DecidableEq

/-- The sign, the exponent and the fraction of IEEE 754. -/
def F64.neg (x : F64) : Bool := decide (2 ^ 63 ≤ x.bits)
def F64.exp (x : F64) : Nat := x.bits % 2 ^ 63 / 2 ^ 52
def F64.frac (x : F64) : Nat := x.bits % 2 ^ 52

/-- `f64::is_nan`. -/
def F64.isNan (x : F64) : Bool := x.exp == 2047 && x.frac != 0

/-- The size of a number in units of `2 ^ -1074`, which are the smallest; for infinity it is the
size that comes next after all the others. -/
def F64.units (x : F64) : Nat :=
  if x.exp = 0 then x.frac else (2 ^ 52 + x.frac) * 2 ^ (x.exp - 1)

/-- The value that comparisons see: both zeros are 0. -/
def F64.val (x : F64) : Int := if x.neg then -(x.units : Int) else x.units

/-- `==` of `f64`. -/
def feq (a b : F64) : Bool := !a.isNan && !b.isNan && a.val == b.val

/-- `f64::partial_cmp`. -/
def fcmp (a b : F64) : Option Ordering :=
  if a.isNan || b.isNan then none else some (compare a.val b.val)

/-- `PartialEq for JsNumber`, num.rs:59-66. -/
def numEq (a b : F64) : Bool := if a.isNan then b.isNan else feq a b

/-- `Ord for JsNumber`, num.rs:70-75. -/
def numCmp (a b : F64) : Ordering := (fcmp a b).getD .eq

/-- What is written to a hasher. -/
inductive Word where
  | tag (n : Nat)
  | num (bits : Nat)
  | int (v : Int)
  | bool (b : Bool)
  | text (s : List Char)
deriving DecidableEq

/-- `Hash for JsNumber`, num.rs:84-90. -/
def numHash (a : F64) : List Word := if !a.isNan then [.num a.bits] else []

/-- `Const`, inst.rs:11-18. -/
inductive Const where
  | bigInt (v : Int)
  | bool (b : Bool)
  | null
  | num (x : F64)
  | str (s : List Char)
  | undefined

/-- The derived equality, inst.rs:9. -/
def constEq : Const → Const → Bool
  | .bigInt a, .bigInt b => a == b
  | .bool a, .bool b => a == b
  | .null, .null => true
  | .num a, .num b => numEq a b
  | .str a, .str b => a == b
  | .undefined, .undefined => true
  | _, _ => false

/-- The derived hash, inst.rs:9. -/
def constHash : Const → List Word
  | .bigInt v => [.tag 0, .int v]
  | .bool b => [.tag 1, .bool b]
  | .null => [.tag 2]
  | .num x => .tag 3 :: numHash x
  | .str s => [.tag 4, .text s]
  | .undefined => [.tag 5]

/-- `Arg`, inst.rs:36-41. -/
inductive Arg where
  | builtin (p : List Char)
  | const (c : Const)
  | fn (n : Nat)
  | var (n : Nat)

/-- The derived equality, inst.rs:34. -/
def argEq : Arg → Arg → Bool
  | .builtin a, .builtin b => a == b
  | .const a, .const b => constEq a b
  | .fn a, .fn b => a == b
  | .var a, .var b => a == b
  | _, _ => false

/-- The derived hash, inst.rs:34. -/
def argHash : Arg → List Word
  | .builtin p => [.tag 0, .text p]
  | .const c => .tag 1 :: constHash c
  | .fn n => [.tag 2, .tag n]
  | .var n => [.tag 3, .tag n]

/-- `Val`, optpass_dvn.rs:92-96, with the operators as numbers. -/
inductive Val where
  | bin (left : Arg) (op : Nat) (right : Arg)
  | un (op : Nat) (arg : Arg)

/-- The derived equality, optpass_dvn.rs:92. -/
def valEq : Val → Val → Bool
  | .bin l o r, .bin l' o' r' => argEq l l' && o == o' && argEq r r'
  | .un o a, .un o' a' => o == o' && argEq a a'
  | _, _ => false

/-- The derived hash, optpass_dvn.rs:92. -/
def valHash : Val → List Word
  | .bin l o r => .tag 0 :: (argHash l ++ .tag o :: argHash r)
  | .un o a => .tag 1 :: .tag o :: argHash a

/-- A hash table visits the entries in an order that depends on the hash. It visits all entries
with the same hash, and may visit others: what it returns is decided by equality. -/
structure Table (β : Type) where
  entries : List (Val × β)
  visit : List Word → List (Val × β)
  within : ∀ h e, e ∈ visit h → e ∈ entries
  same : ∀ e ∈ entries, e ∈ visit (valHash e.1)

/-- `val_to_coc.entry(val)`, optpass_dvn.rs:110-118. -/
def Table.find {β : Type} (t : Table β) (k : Val) : Option β :=
  ((t.visit (valHash k)).find? fun e => valEq e.1 k).map (·.2)

end Verif.NumKey
