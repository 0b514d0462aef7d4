/-!
# Model of the rewriting of property keys in the minifier

`/repo/minify-js/src/opt/prop_rewrite.rs` turns `a["b"]` into `a.b`, `{["b"]: v}` into
`{b: v}`, `{"1": v}` into `{1: v}` and `{b: b}` into `{b}`.

Simplifications, for the whole file.

* Strings are lists of characters.  The names of identifiers in the tree are the source text,
  escapes included (`consume_as_string`, /repo/parse-js/src/parse/class_or_object.rs:630-634).
* The Unicode tables of identifier characters and the arithmetic of doubles are parameters.
* The kinds of tokens that a name may have (identifier, keyword, `true`, `false`, `null`) are
  one: they are printed the same way.
-/

namespace Verif.PropKey

abbrev Text := List Char

/-- The Unicode tables `is_xid_start` and `is_xid_continue`, for characters beyond ASCII. -/
structure Xid where
  xstart : Char → Bool
  xcont : Char → Bool

/-- `is_identifier_start`, /repo/parse-js/src/lex/mod.rs:558-564. -/
def Xid.start (T : Xid) (c : Char) : Bool :=
  if c.toNat < 128 then
    c == '$' || c == '_' || ('a' ≤ c && c ≤ 'z') || ('A' ≤ c && c ≤ 'Z')
  else T.xstart c

/-- `is_identifier_continue`, lex/mod.rs:566-575, in `LexMode::Standard`. -/
def Xid.cont (T : Xid) (c : Char) : Bool :=
  if c.toNat < 128 then
    c == '$' || c == '_' || ('0' ≤ c && c ≤ '9') || ('a' ≤ c && c ≤ 'z') || ('A' ≤ c && c ≤ 'Z')
  else T.xcont c || c == '\u200c' || c == '\u200d'

/-- Doubles: `ofNat` is `as f64`, `asU64` is `as u64`, `toStr` is Number::toString, `lit` the
value of a numeric literal, `display` is `JsNumber`'s `Display`
(/repo/parse-js/src/num.rs:26-57). -/
structure Nums (N : Type) where
  ofNat : Nat → N
  asU64 : N → Nat
  toStr : N → Text
  lit : Text → N
  display : N → Text

/-- The value of a hexadecimal digit, `DIGIT_HEX` and `to_digit`, lex/mod.rs:597-614. -/
def hexDigit (c : Char) : Option Nat :=
  if '0' ≤ c ∧ c ≤ '9' then some (c.toNat - 48)
  else if 'a' ≤ c ∧ c ≤ 'f' then some (c.toNat - 87)
  else if 'A' ≤ c ∧ c ≤ 'F' then some (c.toNat - 55)
  else none

/-- `char::from_u32`. -/
def charOf (n : Nat) : Option Char := if n.isValidChar then some (Char.ofNat n) else none

/-- The loop of the form with braces, lex/mod.rs:593-606: the value and what follows the
digits. -/
def hexRun : Text → Nat → Nat × Text
  | [], v => (v, [])
  | c :: r, v =>
    match hexDigit c with
    | some d => hexRun r (v * 16 + d)
    | none => (v, c :: r)

/-- `lex_unicode_escape` after the backslash, lex/mod.rs:582-618. -/
def escape : Text → Option (Char × Text)
  | 'u' :: '{' :: r =>
    match r with
    | [] => none
    | c :: _ =>
      if (hexDigit c).isNone then none
      else
        match hexRun r 0 with
        | (v, '}' :: r') => if v < 2 ^ 32 then (charOf v).map fun x => (x, r') else none
        | _ => none
  | 'u' :: a :: b :: c :: d :: r =>
    match hexDigit a, hexDigit b, hexDigit c, hexDigit d with
    | some a, some b, some c, some d =>
      (charOf (((a * 16 + b) * 16 + c) * 16 + d)).map fun x => (x, r)
    | _, _, _, _ => none
  | _ => none

/-- The loop of `consume_identifier`, lex/mod.rs:635-651: what follows the name.  Each turn
consumes a character; `n` bounds the turns, and the length of the text is enough. -/
def parts (T : Xid) : Nat → Text → Option Text
  | 0, s => some s
  | _ + 1, [] => some []
  | n + 1, '\\' :: r =>
    match escape r with
    | some (c, r') => if T.cont c then parts T n r' else none
    | none => none
  | n + 1, c :: r => if T.cont c then parts T n r else some (c :: r)

/-- `consume_identifier`, lex/mod.rs:620-654. -/
def identifier (T : Xid) : Text → Option Text
  | [] => none
  | '\\' :: r =>
    match escape r with
    | some (c, r') => if T.start c then parts T r'.length r' else none
    | none => none
  | c :: r => if T.start c then parts T r.length r else none

/-- `is_identifier_name_token`, prop_rewrite.rs:371-391: the first token is a name and ends
where the text ends. -/
def isName (T : Xid) (s : Text) : Bool := identifier T s == some []

/-- The value of decimal digits, `str::parse`. -/
def parseDec (s : Text) : Nat := s.foldl (fun n c => n * 10 + (c.toNat - 48)) 0

/-- `u64::to_string`. -/
def natStr (n : Nat) : Text := n.repr.toList

variable {N E : Type}

/-- `parse_canonical_u64_index`, prop_rewrite.rs:393-419. -/
def index (J : Nums N) (s : Text) : Option Nat :=
  if s.isEmpty then none
  else if 1 < s.length && s.head? == some '0' then none
  else if !s.all (fun c => '0' ≤ c && c ≤ '9') then none
  else if 2 ^ 64 ≤ parseDec s then none
  else if natStr (parseDec s) ≠ s then none
  else if J.asU64 (J.ofNat (parseDec s)) ≠ parseDec s then none
  else some (parseDec s)

/-- An expression that is used as a key.  A BigInt is kept as its decimal digits
(/repo/parse-js/src/parse/expr/lit.rs:45-95); the substitutions of a template are `none`. -/
inductive KeyExpr (N E : Type)
  | str (s : Text)
  | bool (b : Bool)
  | bigint (digits : Text)
  | null
  | num (x : N)
  | template (ps : List (Option Text))
  | other (e : E)
deriving DecidableEq

/-- `template_to_string`, prop_rewrite.rs:421-430. -/
def templateText : List (Option Text) → Text → Option Text
  | [], out => some out
  | some s :: ps, out => templateText ps (out ++ s)
  | none :: _, _ => none

/-- A member expression, without its object. -/
inductive Member (N E : Type)
  | dot (name : Text)
  | computed (e : KeyExpr N E)
deriving DecidableEq

/-- The static key, prop_rewrite.rs:98-111. -/
def staticKey : KeyExpr N E → Option Text
  | .str s => some s
  | .bool b => some (if b then "true".toList else "false".toList)
  | .bigint d => some d
  | .null => some "null".toList
  | .template ps => templateText ps []
  | _ => none

/-- `simplify_computed_member`, prop_rewrite.rs:75-141. -/
def simplifyMember (T : Xid) (J : Nums N) (e : KeyExpr N E) : Member N E × Bool :=
  match staticKey e with
  | none => (.computed e, false)
  | some s =>
    if isName T s then (.dot s, true)
    else
      match index J s with
      | some n => (.computed (.num (J.ofNat n)), true)
      | none => (.computed e, false)

/-- The token of a direct key. -/
inductive Tok
  | name | string | number | bigint | private_
deriving DecidableEq, Repr

/-- `ClassOrObjKey`. -/
inductive Key (N E : Type)
  | direct (tok : Tok) (text : Text)
  | computed (e : KeyExpr N E)
deriving DecidableEq

/-- The end of the cases for strings and templates, prop_rewrite.rs:204-217, 259-271. -/
def directOf (T : Xid) (J : Nums N) (s : Text) : Key N E :=
  if isName T s then .direct .name s
  else
    match index J s with
    | some n => .direct .number (natStr n)
    | none => .direct .string s

/-- `simplify_object_key`, prop_rewrite.rs:165-299.  `preserve` is `ProtoSemantics::Preserve`. -/
def simplifyKey (T : Xid) (J : Nums N) (preserve : Bool) : Key N E → Key N E × Bool
  | .direct .string s =>
    if isName T s then (.direct .name s, true)
    else
      match index J s with
      | some n => (.direct .number (natStr n), true)
      | none => (.direct .string s, false)
  | .direct .bigint s =>
    match index J s with
    | some n => (.direct .number (natStr n), true)
    | none => (.direct .bigint s, false)
  | .direct t s => (.direct t s, false)
  | .computed (.str s) =>
    if preserve && s == "__proto__".toList then (.computed (.str s), false)
    else (directOf T J s, true)
  | .computed (.bool b) => (.direct .name (if b then "true".toList else "false".toList), true)
  | .computed .null => (.direct .name "null".toList, true)
  | .computed (.template ps) =>
    match templateText ps [] with
    | none => (.computed (.template ps), false)
    | some s =>
      if preserve && s == "__proto__".toList then (.computed (.template ps), false)
      else (directOf T J s, true)
  | .computed (.bigint d) =>
    match index J d with
    | some n => (.direct .number (natStr n), true)
    | none => (.direct .bigint d, true)
  | .computed (.num x) => (.direct .number (J.display x), true)
  | .computed (.other e) => (.computed (.other e), false)

/-- A property of an object literal with a value, or one of a pattern with a target: the key
and, if the value is an identifier, its name; or a shorthand. -/
inductive Prop_ (N E : Type)
  | keyed (key : Key N E) (id : Option Text)
  | short (id : Text)
deriving DecidableEq

/-- `try_shorthand_prop`, prop_rewrite.rs:301-347. -/
def shortProp : Prop_ N E → Prop_ N E × Bool
  | .keyed (.direct t s) (some x) =>
    if s = "__proto__".toList then (.keyed (.direct t s) (some x), false)
    else if x = s then (.short x, true)
    else (.keyed (.direct t s) (some x), false)
  | p => (p, false)

/-- `try_shorthand_pat_prop`, prop_rewrite.rs:349-383.  `valid` is
`is_valid_pattern_identifier` of the token that a name is. -/
def shortPat (T : Xid) (valid : Text → Bool) : Prop_ N E → Prop_ N E × Bool
  | .keyed (.direct t s) (some x) =>
    if x ≠ s then (.keyed (.direct t s) (some x), false)
    else if t = .string && !isName T s then (.keyed (.direct t s) (some x), false)
    else if (t = .string || t = .name) && valid s then (.short s, true)
    else (.keyed (.direct t s) (some x), false)
  | p => (p, false)

end Verif.PropKey
