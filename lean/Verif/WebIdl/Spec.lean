import Verif.WebIdl.Model

/-!
# What Web IDL says

The conversions of https://webidl.spec.whatwg.org/#js-type-mapping for the types of the
model, written as the equations that a converter has to satisfy.  The clauses for unions are
those of https://webidl.spec.whatwg.org/#js-union, the ones for iterables those of
https://webidl.spec.whatwg.org/#create-sequence-from-iterable.
-/

namespace Verif.WebIdl

/-- The kinds of types that the rules for unions and overloads tell apart. -/
inductive Kind
  | undefined | boolean | numeric | string | object | sequence | async | frozen | union | nullable
deriving DecidableEq, Repr

/-- The kind of a type. -/
def Ty.kind : Ty → Kind
  | .undefined => .undefined
  | .boolean => .boolean
  | .double => .numeric
  | .domString => .string
  | .object => .object
  | .sequence _ => .sequence
  | .asyncSequence _ => .async
  | .frozenArray _ => .frozen
  | .union _ => .union
  | .nullable _ => .nullable

mutual
/-- The flattened member types: unions in unions are opened and nullable members count as
what they are nullable versions of. -/
def members : Ty → List Ty
  | .union ms => membersL ms
  | .nullable t => members t
  | .undefined => [.undefined]
  | .boolean => [.boolean]
  | .double => [.double]
  | .domString => [.domString]
  | .object => [.object]
  | .sequence t => [.sequence t]
  | .asyncSequence t => [.asyncSequence t]
  | .frozenArray t => [.frozenArray t]

/-- The same for a list of members. -/
def membersL : List Ty → List Ty
  | [] => []
  | m :: ms => members m ++ membersL ms
end

mutual
/-- The first nullable member. -/
def nullableOf : Ty → Option Ty
  | .union ms => nullableOfL ms
  | .nullable t => some (.nullable t)
  | _ => none

/-- The same for a list of members. -/
def nullableOfL : List Ty → Option Ty
  | [] => none
  | m :: ms => (nullableOf m).or (nullableOfL ms)
end

/-- The first member type of a kind. -/
def firstOf (k : Kind) (ts : List Ty) : Option Ty := ts.find? (fun t => t.kind = k)

/-- The number `n` in decimal, as UTF-16 code units. -/
def decimal (n : Nat) : List Nat := n.repr.toList.map Char.toNat

section
variable {σ ε V S N Y : Type} (R : Rt σ ε V S N Y)

/-- `undefined` or `null`. -/
def Nullish (v : V) : Prop := R.isNull v = true ∨ R.isUndefined v = true

instance (v : V) : Decidable (Nullish R v) := inferInstanceAs (Decidable (_ ∨ _))

/-- A method of an object. -/
def lookup (v : V) (sym : Sym) : M σ ε (Option V) := do R.getMethod v (← R.symbol sym)

/-- Read an iterator to its end, at most `n` values, converting each one. -/
def readUpTo (C : V → M σ ε (Val V S N)) (it : V) : Nat → M σ ε (List (Val V S N))
  | 0 => do
    match ← R.step it with
    | none => pure []
    | some _ => M.stop (.limit (R.limit + 1) R.limit)
  | n + 1 => do
    match ← R.step it with
    | none => pure []
    | some v => do
      let x ← C v
      let xs ← readUpTo C it n
      pure (x :: xs)

/-- Create a sequence from an iterable and a method. -/
def sequenceFrom (C : V → M σ ε (Val V S N)) (v method : V) : M σ ε (List (Val V S N)) := do
  let it ← R.getIterator v method
  readUpTo R C it R.limit

/-- Put values in an array at the indices from `i` on. -/
def putAll (arr : V) : Nat → List V → M σ ε Unit
  | _, [] => pure ()
  | i, x :: xs => do
    R.createData arr (← R.allocString (decimal i)) x
    putAll arr (i + 1) xs

/-- A new array with these elements. -/
def arrayOf (js : List V) : M σ ε V := do
  let arr ← R.allocArray js.length
  putAll R arr 0 js
  pure arr

/-- Convert all values, in order. -/
def inOrder {α β : Type} (D : α → M σ ε β) : List α → M σ ε (List β)
  | [] => pure []
  | x :: xs => do
    let y ← D x
    let ys ← inOrder D xs
    pure (y :: ys)

/-- A new frozen array with these IDL values. -/
def frozenFrom (D : Val V S N → M σ ε V) (xs : List (Val V S N)) : M σ ε V := do
  let arr ← arrayOf R (← inOrder D xs)
  R.freeze arr
  pure arr

/-- The last steps for unions: primitive values. -/
def primitiveStep (C : Ty → V → M σ ε (Val V S N)) (ts : List Ty) (v : V) :
    M σ ε (Val V S N) :=
  let convertTo (t : Ty) : M σ ε (Val V S N) := do pure (.union t (← C t v))
  match (if R.isBoolean v then firstOf .boolean ts else none)
      <|> (if R.isNumber v then firstOf .numeric ts else none)
      <|> firstOf .string ts <|> firstOf .numeric ts <|> firstOf .boolean ts with
  | some t => convertTo t
  | none => throwType R

/-- The step for `object`. -/
def objectStep (ts : List Ty) (v : V) (next : M σ ε (Val V S N)) : M σ ε (Val V S N) :=
  match firstOf .object ts with
  | some t => pure (.union t (.object v))
  | none => next

/-- The step for frozen arrays. -/
def frozenStep (C : Ty → V → M σ ε (Val V S N)) (D : Ty → Val V S N → M σ ε V)
    (ts : List Ty) (v : V) (next : M σ ε (Val V S N)) : M σ ε (Val V S N) :=
  match firstOf .frozen ts with
  | some (.frozenArray e) => do
    match ← lookup R v .iterator with
    | some m => do
      let xs ← sequenceFrom R (C e) v m
      let arr ← frozenFrom R (D e) xs
      pure (.union (.frozenArray e) (.frozenArray arr))
    | none => next
  | _ => next

/-- The step for sequences. -/
def sequenceStep (C : Ty → V → M σ ε (Val V S N)) (ts : List Ty) (v : V)
    (next : M σ ε (Val V S N)) : M σ ε (Val V S N) :=
  match firstOf .sequence ts with
  | some (.sequence e) => do
    match ← lookup R v .iterator with
    | some m => do
      let xs ← sequenceFrom R (C e) v m
      pure (.union (.sequence e) (.sequence xs))
    | none => next
  | _ => next

/-- The step for async sequences: not for `String` objects if there is a string type. -/
def asyncStep (ts : List Ty) (v : V) (next : M σ ε (Val V S N)) : M σ ε (Val V S N) :=
  match firstOf .async ts with
  | some t =>
    if (firstOf .string ts).isSome = true ∧ R.isStringObject v = true then next
    else do
      match ← lookup R v .asyncIterator with
      | some m => pure (.union t (.asyncSequence v m true))
      | none => do
        match ← lookup R v .iterator with
        | some m => pure (.union t (.asyncSequence v m false))
        | none => next
  | none => next

/-- Conversion to a union. -/
def unionSpec (C : Ty → V → M σ ε (Val V S N)) (D : Ty → Val V S N → M σ ε V)
    (ms : List Ty) (v : V) : M σ ε (Val V S N) :=
  let ts := membersL ms
  if (firstOf .undefined ts).isSome = true ∧ R.isUndefined v = true then
    pure (.union .undefined .undefined)
  else
    match if Nullish R v then nullableOfL ms else none with
    | some t => pure (.union t .null)
    | none =>
      let last := primitiveStep R C ts v
      if R.isObject v then
        asyncStep R ts v (sequenceStep R C ts v (frozenStep R C D ts v (objectStep ts v last)))
      else last

/-- The unions, and values for them, that the code treats like Web IDL: without nullable
members unless the value is `null` or `undefined`; without `object` unless the value is none;
without numbers and booleans unless there is a string type and the value is neither. -/
structure UnionFits (ms : List Ty) (v : V) : Prop where
  nullable : nullableOfL ms = none ∨
    (Nullish R v ∧ firstOf .undefined (membersL ms) = none)
  object : firstOf .object (membersL ms) = none ∨ R.isObject v = false
  numeric : firstOf .numeric (membersL ms) = none ∨
    ((firstOf .string (membersL ms)).isSome = true ∧ R.isNumber v = false)
  boolean : firstOf .boolean (membersL ms) = none ∨
    ((firstOf .string (membersL ms)).isSome = true ∧ R.isBoolean v = false)

/-- The conversion `C` from JavaScript, together with `D` back to it, is the one of Web IDL,
except for unions that do not fit. -/
structure Follows (C : Ty → V → M σ ε (Val V S N)) (D : Ty → Val V S N → M σ ε V) : Prop where
  undefined : ∀ v, C .undefined v = if R.isUndefined v then pure .undefined else throwType R
  boolean : ∀ v, C .boolean v = do pure (.boolean (← R.toBoolean v))
  double : ∀ v, C .double v = do pure (.double (← R.toNumber v))
  domString : ∀ v, C .domString v = do pure (.domString (← R.toStr v))
  object : ∀ v, C .object v = if R.isObject v then pure (.object v) else throwType R
  sequence : ∀ e v, C (.sequence e) v =
    if R.isObject v then do
      match ← lookup R v .iterator with
      | none => throwType R
      | some m => do pure (.sequence (← sequenceFrom R (C e) v m))
    else throwType R
  frozenArray : ∀ e v, C (.frozenArray e) v =
    if R.isObject v then do
      match ← lookup R v .iterator with
      | none => throwType R
      | some m => do
        let xs ← sequenceFrom R (C e) v m
        let arr ← frozenFrom R (D e) xs
        pure (.frozenArray arr)
    else throwType R
  asyncSequence : ∀ e v, C (.asyncSequence e) v =
    if R.isObject v then do
      match ← lookup R v .asyncIterator with
      | some m => pure (.asyncSequence v m true)
      | none => do
        match ← lookup R v .iterator with
        | some m => pure (.asyncSequence v m false)
        | none => throwType R
    else throwType R
  nullable : ∀ e v, C (.nullable e) v = if Nullish R v then pure .null else C e v
  union : ∀ ms v, UnionFits R ms v → C (.union ms) v = unionSpec R C D ms v

/-- The conversion `D` to JavaScript is the one of Web IDL, except for values of nullable types
that are not `null`. -/
structure Back (D : Ty → Val V S N → M σ ε V) : Prop where
  undefined : D .undefined .undefined = pure R.vUndefined
  null : ∀ t, D (.nullable t) .null = pure R.vNull
  boolean : ∀ b, D .boolean (.boolean b) = pure (R.vBool b)
  double : ∀ n, D .double (.double n) = pure (R.vNumber n)
  domString : ∀ s, D .domString (.domString s) = pure (R.vString s)
  object : ∀ v, D .object (.object v) = pure v
  sequence : ∀ e xs, D (.sequence e) (.sequence xs) = do arrayOf R (← inOrder (D e) xs)
  frozenArray : ∀ e v, D (.frozenArray e) (.frozenArray v) = pure v
  asyncSequence : ∀ e v m k, D (.asyncSequence e) (.asyncSequence v m k) = pure v
  union : ∀ ms m x, D (.union ms) (.union m x) = D m x

/-- `m` is a member of a union of `ms`, maybe of a union in it. -/
inductive Member (m : Ty) : List Ty → Prop
  | here {ms : List Ty} : m ∈ ms → Member m ms
  | inner {ms ns : List Ty} : Ty.union ns ∈ ms → Member m ns → Member m ms

/-- The values of a type.  Sequences keep to the limit. -/
inductive HasType : Ty → Val V S N → Prop
  | undefined : HasType .undefined .undefined
  | boolean (b : Bool) : HasType .boolean (.boolean b)
  | double (n : N) : HasType .double (.double n)
  | domString (s : S) : HasType .domString (.domString s)
  | object {v : V} : R.isObject v = true → HasType .object (.object v)
  | sequence {t : Ty} {xs : List (Val V S N)} : xs.length ≤ R.limit →
      (∀ x ∈ xs, HasType t x) → HasType (.sequence t) (.sequence xs)
  | asyncSequence {t : Ty} {v m : V} {k : Bool} : R.isObject v = true →
      HasType (.asyncSequence t) (.asyncSequence v m k)
  | frozenArray {t : Ty} (v : V) : HasType (.frozenArray t) (.frozenArray v)
  | null {t : Ty} : HasType (.nullable t) .null
  | some {t : Ty} {x : Val V S N} : HasType t x → HasType (.nullable t) x
  | union {ms : List Ty} {m : Ty} {x : Val V S N} : Member m ms → HasType m x →
      HasType (.union ms) (.union m x)

/-- What a computation returns, if it returns. -/
def Ensures {α : Type} (m : M σ ε α) (P : α → Prop) : Prop :=
  ∀ s a s', m s = (.ok a, s') → P a

/-- It returns, whatever the state. -/
def Returns {α : Type} (m : M σ ε α) : Prop := ∀ s, ∃ a s', m s = (.ok a, s')

/-- An engine in which nothing fails when arrays are made. -/
structure NoThrow : Prop where
  string : ∀ s, Returns (R.allocString s)
  array : ∀ n, Returns (R.allocArray n)
  create : ∀ a k v, Returns (R.createData a k v)

/-- A type without nullable types in it. -/
inductive NoNullable : Ty → Prop
  | undefined : NoNullable .undefined
  | boolean : NoNullable .boolean
  | double : NoNullable .double
  | domString : NoNullable .domString
  | object : NoNullable .object
  | sequence {t : Ty} : NoNullable t → NoNullable (.sequence t)
  | asyncSequence {t : Ty} : NoNullable t → NoNullable (.asyncSequence t)
  | frozenArray {t : Ty} : NoNullable t → NoNullable (.frozenArray t)
  | union {ms : List Ty} : (∀ m ∈ ms, NoNullable m) → NoNullable (.union ms)

/-! ## Overloads

https://webidl.spec.whatwg.org/#js-overloads -/

/-- The type of an overload at `i`, its nullable inner type or a member of it has this kind. -/
def Overload.has (k : Kind) (i : Nat) (o : Overload) : Bool :=
  (members (o.types.getD i .undefined)).any fun t => t.kind = k

/-- The argument at `i` is optional. -/
def Overload.opt (i : Nat) (o : Overload) : Bool := o.optional.getD i false

/-- The type at `i` is nullable or has a nullable member. -/
def Overload.null (i : Nat) (o : Overload) : Bool :=
  (nullableOf (o.types.getD i .undefined)).isSome

/-- Remove the other entries: one is left. -/
def only (s : List Overload) (p : Overload → Bool) : M σ ε Overload :=
  match s.filter p with
  | [o] => pure o
  | _ => throwType R

/-- The steps for primitive values. -/
def choosePrimitive (s : List Overload) (i : Nat) (v : V) :
    M σ ε (Overload × Option (Arg V S N)) :=
  let present (k : Kind) : Option Kind := if s.any (Overload.has k i) then some k else none
  match (if R.isBoolean v then present .boolean else none)
      <|> (if R.isNumber v then present .numeric else none)
      <|> present .string <|> present .numeric <|> present .boolean with
  | some k => do pure (← only R s (Overload.has k i), none)
  | none => throwType R

/-- The step for `object`. -/
def chooseObject (s : List Overload) (i : Nat) (next : M σ ε (Overload × Option (Arg V S N))) :
    M σ ε (Overload × Option (Arg V S N)) :=
  if s.any (Overload.has .object i) then do pure (← only R s (Overload.has .object i), none)
  else next

/-- The step for frozen arrays: the argument is converted with the method that was read. -/
def chooseFrozen (C : Ty → V → M σ ε (Val V S N)) (D : Ty → Val V S N → M σ ε V)
    (s : List Overload) (i : Nat) (v : V) (next : M σ ε (Overload × Option (Arg V S N))) :
    M σ ε (Overload × Option (Arg V S N)) :=
  if s.any (Overload.has .frozen i) then do
    match ← lookup R v .iterator with
    | none => next
    | some m => do
      let o ← only R s (Overload.has .frozen i)
      match o.types.getD i .undefined with
      | .frozenArray e => do
        let xs ← sequenceFrom R (C e) v m
        let arr ← frozenFrom R (D e) xs
        pure (o, some (.value (.frozenArray arr)))
      | _ => pure (o, none)
  else next

/-- The step for sequences. -/
def chooseSequence (C : Ty → V → M σ ε (Val V S N))
    (s : List Overload) (i : Nat) (v : V) (next : M σ ε (Overload × Option (Arg V S N))) :
    M σ ε (Overload × Option (Arg V S N)) :=
  if s.any (Overload.has .sequence i) then do
    match ← lookup R v .iterator with
    | none => next
    | some m => do
      let o ← only R s (Overload.has .sequence i)
      match o.types.getD i .undefined with
      | .sequence e => do
        let xs ← sequenceFrom R (C e) v m
        pure (o, some (.value (.sequence xs)))
      | _ => pure (o, none)
  else next

/-- The step for async sequences: not for `String` objects if there is a string type. -/
def chooseAsync (s : List Overload) (i : Nat) (v : V)
    (next : M σ ε (Overload × Option (Arg V S N))) : M σ ε (Overload × Option (Arg V S N)) :=
  if s.any (Overload.has .async i) = true ∧
      ¬ (s.any (Overload.has .string i) = true ∧ R.isStringObject v = true) then do
    match ← lookup R v .asyncIterator with
    | some m => do
      pure (← only R s (Overload.has .async i), some (.value (.asyncSequence v m true)))
    | none => do
      match ← lookup R v .iterator with
      | some m => do
        pure (← only R s (Overload.has .async i), some (.value (.asyncSequence v m false)))
      | none => next
  else next

/-- The choice of an overload at the distinguishing argument, which is `v`.  If the choice
has read a method of `v`, the argument is converted with it. -/
def chooseSpec (C : Ty → V → M σ ε (Val V S N)) (D : Ty → Val V S N → M σ ε V)
    (s : List Overload) (i : Nat) (v : V) : M σ ε (Overload × Option (Arg V S N)) :=
  if R.isUndefined v = true ∧ s.any (Overload.opt i) = true then do
    pure (← only R s (Overload.opt i), none)
  else if Nullish R v ∧ s.any (Overload.null i) = true then do
    pure (← only R s (Overload.null i), none)
  else if R.isObject v then
    chooseAsync R s i v (chooseSequence R C s i v (chooseFrozen R C D s i v
      (chooseObject R s i (choosePrimitive R s i v))))
  else choosePrimitive R s i v

/-- The overloads, and arguments for them, that the code treats like Web IDL. -/
structure ChoiceFits (s : List Overload) (i : Nat) (v : V) : Prop where
  many : 2 ≤ s.length
  optional : R.isUndefined v = true → s.any (Overload.opt i) = false
  nullable : Nullish R v → s.any (Overload.null i) = false
  object : R.isObject v = true → s.any (Overload.has .object i) = false
  numeric : s.any (Overload.has .numeric i) = false ∨
    (s.any (Overload.has .string i) = true ∧ R.isNumber v = false)
  boolean : s.any (Overload.has .boolean i) = false ∨
    (s.any (Overload.has .string i) = true ∧ R.isBoolean v = false)
  one : s.any (Overload.has .sequence i) = false ∨ s.any (Overload.has .frozen i) = false
  plain : ∀ o ∈ s, ∀ k, k = .sequence ∨ k = .frozen ∨ k = .async → o.has k i = true →
    (o.types.getD i .undefined).kind = k

/-- Kinds that overloads cannot be told apart by: `sequence` and `FrozenArray`, and every
kind with itself. -/
def Kind.class : Kind → Kind
  | .frozen => .sequence
  | k => k

/-- Two types are told apart: no member of one is like a member of the other.  Web IDL also
rejects `object` beside a sequence kind and two nullable types; interfaces with these are not
valid. -/
def Apart (a b : Ty) : Prop :=
  ∀ x ∈ members a, ∀ y ∈ members b, x.kind.class ≠ y.kind.class

/-- No nullable union, or nullable type of a nullable type, is a member. -/
def Simple (t : Ty) : Prop :=
  ∀ u, Member (.nullable u) [t] → u.kind ≠ .union ∧ u.kind ≠ .nullable

/-- The arguments fit the overload: each is left out, if it is optional and `undefined` was
given, or has its type. -/
def ArgsFit (o : Overload) (args : List V) (xs : List (Arg V S N)) : Prop :=
  xs.length = o.types.length ∧
  ∀ i (a : Arg V S N), xs[i]? = some a →
    ∃ t, o.types[i]? = some t ∧
      match a with
      | .missing => o.opt i = true ∧ ∃ v, args[i]? = some v ∧ R.isUndefined v = true
      | .value x => HasType R t x

/-- The argument at `i` tells the overloads apart. -/
def Told (s : List Overload) (i : Nat) : Prop :=
  s.Pairwise fun o p => Apart (o.types.getD i .undefined) (p.types.getD i .undefined)

/-- The overloads with the same number of arguments agree before the argument that tells them
apart, as Web IDL demands of the interfaces, and have simple types. -/
structure Agree (os : List Overload) : Prop where
  simple : ∀ o ∈ os, ∀ t ∈ o.types, Simple t
  same : ∀ n j, (∀ i ≤ j, ¬ Told (os.filter fun o => o.types.length = n) i) →
    ∀ o ∈ os, ∀ p ∈ os, o.types.length = n → p.types.length = n →
      o.types.getD j .undefined = p.types.getD j .undefined ∧ o.opt j = p.opt j

/-- The number of arguments that count: no overload takes more than `m`. -/
def IsMax (os : List Overload) (m : Nat) : Prop :=
  (∀ o ∈ os, o.types.length ≤ m) ∧ (m = 0 ∨ ∃ o ∈ os, o.types.length = m)

/-- An argument that has been given: left out if it is optional and `undefined`. -/
def argument (C : Ty → V → M σ ε (Val V S N)) (o : Overload) (p : V × Nat) :
    M σ ε (Arg V S N) :=
  if o.opt p.2 = true ∧ R.isUndefined p.1 = true then pure .missing
  else do pure (.value (← C (o.types.getD p.2 .undefined) p.1))

/-- The arguments at the indices from `i` up to `n`. -/
def arguments (C : Ty → V → M σ ε (Val V S N)) (o : Overload) (args : List V) (i n : Nat) :
    M σ ε (List (Arg V S N)) :=
  inOrder (argument R C o) ((args.zipIdx.take n).drop i)

/-- It does not panic. -/
def Calm {α : Type} (m : M σ ε α) : Prop := ∀ s s', m s ≠ (.error .panic, s')

/-- An engine whose operations do not panic. -/
structure CalmRt : Prop where
  toBoolean : ∀ v, Calm (R.toBoolean v)
  toNumber : ∀ v, Calm (R.toNumber v)
  toStr : ∀ v, Calm (R.toStr v)
  symbol : ∀ s, Calm (R.symbol s)
  getMethod : ∀ v y, Calm (R.getMethod v y)
  getIterator : ∀ v m, Calm (R.getIterator v m)
  step : ∀ v, Calm (R.step v)
  allocString : ∀ s, Calm (R.allocString s)
  allocArray : ∀ n, Calm (R.allocArray n)
  createData : ∀ a k v, Calm (R.createData a k v)
  freeze : ∀ v, Calm (R.freeze v)

end

end Verif.WebIdl
