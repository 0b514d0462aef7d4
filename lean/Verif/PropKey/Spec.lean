import Verif.PropKey.Model

/-!
# Which property a key denotes

ECMA-262, "Runtime Semantics: Evaluation" of property names and property accessors, and
Number::toString.
-/

namespace Verif.PropKey

/-- An integer as a double: 53 bits, ties to even. -/
def roundNat (m : Nat) : Nat :=
  if m < 2 ^ 53 then m
  else
    let e := Nat.log2 m - 52
    let q := m / 2 ^ e
    let r := m % 2 ^ e
    let h := 2 ^ (e - 1)
    (if r < h ∨ (r = h ∧ q % 2 = 0) then q else q + 1) * 2 ^ e

/-- `v` has at most `k` significant decimal digits. -/
def Digits (k v : Nat) : Prop := ∃ s e, v = s * 10 ^ e ∧ s < 10 ^ k

/-- Number::toString, step 5, for an integer-valued double `x` below `10 ^ 21`: what is printed
is the decimal of a number that is read back as `x` and has as few digits as possible.  Numbers
that are not integers have more digits than `x`. -/
def Shortest (x v : Nat) : Prop :=
  roundNat v = x ∧ ∀ k w, roundNat w = x → Digits k w → Digits k v

/-- The doubles are those of IEEE 754 and ECMA-262.  `literal` says which are the value of a
numeric literal. -/
structure Lawful {N : Type} (J : Nums N) (literal : N → Prop) : Prop where
  toStr : ∀ n < 2 ^ 64, ∃ v, Shortest (roundNat n) v ∧ J.toStr (J.ofNat n) = v.repr.toList
  asU64 : ∀ n, J.asU64 (J.ofNat n) = min (roundNat n) (2 ^ 64 - 1)
  lit : ∀ n : Nat, J.lit n.repr.toList = J.ofNat n
  display : ∀ x, literal x → J.lit (J.display x) = x

/-- The value of hexadecimal digits. -/
def hexValue (s : Text) : Nat :=
  s.foldl (fun n c => n * 16 + "0123456789abcdef".toList.idxOf c.toLower) 0

/-- StringValue of an identifier name: the escapes are replaced. -/
def stringValue : Text → Text
  | '\\' :: 'u' :: '{' :: r =>
    Char.ofNat (hexValue (r.takeWhile (· ≠ '}'))) :: stringValue ((r.dropWhile (· ≠ '}')).drop 1)
  | '\\' :: 'u' :: a :: b :: c :: d :: r => Char.ofNat (hexValue [a, b, c, d]) :: stringValue r
  | c :: r => c :: stringValue r
  | [] => []
termination_by s => s.length
decreasing_by
  · have : (r.dropWhile (· ≠ '}')).length ≤ r.length := (List.dropWhile_sublist _).length_le
    simp only [List.length_drop, List.length_cons]
    omega
  · simp only [List.length_cons]; omega
  · simp only [List.length_cons]; omega

/-- What a key denotes: a property name, a private name, or what evaluating an expression
gives. -/
inductive Denotes (N E : Type)
  | name (s : Text)
  | hidden (s : Text)
  | dynamic (e : KeyExpr N E)

variable {N E : Type} (J : Nums N)

/-- The property key that an expression gives: ToPropertyKey of its value.  A BigInt is its
decimal digits. -/
def exprKey : KeyExpr N E → Denotes N E
  | .str s => .name s
  | .bool true => .name "true".toList
  | .bool false => .name "false".toList
  | .bigint d => .name d
  | .null => .name "null".toList
  | .num x => .name (J.toStr x)
  | .template ps => if none ∈ ps then .dynamic (.template ps) else .name (ps.filterMap id).flatten
  | .other e => .dynamic (.other e)

/-- The key of a member expression. -/
def memberKey : Member N E → Denotes N E
  | .dot t => .name (stringValue t)
  | .computed e => exprKey J e

/-- The key of a property in an object literal or pattern. -/
def propKey : Key N E → Denotes N E
  | .direct .name t => .name (stringValue t)
  | .direct .string t => .name t
  | .direct .number t => .name (J.toStr (J.lit t))
  | .direct .bigint t => .name t
  | .direct .private_ t => .hidden t
  | .computed e => exprKey J e

/-- `__proto__: v` in an object literal sets the prototype; `["__proto__"]: v` does not. -/
def SetsProto : Key N E → Prop
  | .direct .name t => stringValue t = "__proto__".toList
  | .direct .string t => t = "__proto__".toList
  | _ => False

/-- The names that are rewritten rightly: without backslashes, and no index of `2 ^ 53` or
more. -/
def Plain : Denotes N E → Prop
  | .name s => '\\' ∉ s ∧ ∀ n : Nat, s = n.repr.toList → n < 2 ^ 53
  | _ => True

/-- The letters of the grammar of names in ASCII. -/
def asciiStart : Text := "$_abcdefghijklmnopqrstuvwxyzABCDEFGHIJKLMNOPQRSTUVWXYZ".toList

/-- IdentifierStart. -/
def IsStart (T : Xid) (c : Char) : Prop := c ∈ asciiStart ∨ (128 ≤ c.toNat ∧ T.xstart c = true)

/-- IdentifierPart: with digits and the two joiners. -/
def IsPart (T : Xid) (c : Char) : Prop :=
  c ∈ asciiStart ∨ c ∈ "0123456789".toList ∨
    (128 ≤ c.toNat ∧ (T.xcont c = true ∨ c.toNat = 0x200C ∨ c.toNat = 0x200D))

/-- An identifier name without escapes. -/
def IsIdent (T : Xid) (s : Text) : Prop :=
  ∃ c r, s = c :: r ∧ IsStart T c ∧ ∀ d ∈ r, IsPart T d

/-- What a property means: what its key denotes, whether it sets the prototype, and the name
of the identifier that is its value or target. -/
def propMeaning : Prop_ N E → Denotes N E × Prop × Option Text
  | .keyed k id => (propKey J k, SetsProto k, id.map stringValue)
  | .short x => (.name (stringValue x), False, some (stringValue x))

end Verif.PropKey
