/-!
# Model of the Web IDL conversions of `webidl`

`/repo/webidl/src/convert.rs` converts JavaScript values to IDL values and back,
`/repo/webidl/src/overload.rs` picks an overload for a list of arguments.  Both run over
an engine they know only through the trait `JsRuntime`
(`/repo/webidl/src/lib.rs:112-220`): every operation of it may run scripts, change the
engine's state and throw.

Simplifications, for the whole file.

* An object handle is the value it is the handle of: `as_object` gives the value itself
  when `is_object` holds.
* The tests for the kind of a value do not depend on the engine's state.
* The message of a `TypeError` is left out.
* An index out of range, where Rust panics, is the error `panic`.
-/

namespace Verif.WebIdl

/-- `WebIdlError`, /repo/webidl/src/error.rs:1-49: an exception of the engine, or a limit
that was passed, with the length found and the limit; or a panic. -/
inductive Err (ε : Type)
  | js (e : ε)
  | limit (len max : Nat)
  | panic
deriving DecidableEq, Repr

/-- A computation over an engine with states `σ` and exceptions `ε`. -/
def M (σ ε α : Type) : Type := σ → Except (Err ε) α × σ

/-- The computation that does nothing. -/
def M.ret {σ ε α : Type} (a : α) : M σ ε α := fun s => (.ok a, s)

/-- Rust's `?`: go on with the value, or stop with the error. -/
def M.andThen {σ ε α β : Type} (m : M σ ε α) (f : α → M σ ε β) : M σ ε β := fun s =>
  match m s with
  | (.ok a, s') => f a s'
  | (.error e, s') => (.error e, s')

instance {σ ε : Type} : Monad (M σ ε) where
  pure := M.ret
  bind := M.andThen

/-- Stop with an error. -/
def M.stop {σ ε α : Type} (e : Err ε) : M σ ε α := fun s => (.error e, s)

/-- `WellKnownSymbol`, lib.rs:87-91. -/
inductive Sym
  | iterator | asyncIterator
deriving DecidableEq, Repr

/-- `JsRuntime`, lib.rs:112-220: states `σ`, exceptions `ε`, values `V`, strings `S`, numbers
`N` and symbols `Y`. -/
structure Rt (σ ε V S N Y : Type) where
  limit : Nat
  isUndefined : V → Bool
  isNull : V → Bool
  isBoolean : V → Bool
  isNumber : V → Bool
  isObject : V → Bool
  isStringObject : V → Bool
  vUndefined : V
  vNull : V
  vBool : Bool → V
  vNumber : N → V
  vString : S → V
  typeError : σ → ε × σ
  toBoolean : V → M σ ε Bool
  toNumber : V → M σ ε N
  toStr : V → M σ ε S
  symbol : Sym → M σ ε Y
  getMethod : V → Y → M σ ε (Option V)
  getIterator : V → V → M σ ε V
  step : V → M σ ε (Option V)
  allocString : List Nat → M σ ε S
  allocArray : Nat → M σ ε V
  createData : V → S → V → M σ ε Unit
  freeze : V → M σ ε Unit

/-- `IdlType`, /repo/webidl/src/types.rs:3-14. -/
inductive Ty
  | undefined | boolean | double | domString | object
  | sequence (t : Ty) | asyncSequence (t : Ty) | frozenArray (t : Ty)
  | union (ms : List Ty)
  | nullable (t : Ty)
deriving Repr

/-- `IdlValue`, types.rs:116-128.  `async` says whether `AsyncSequenceKind` is `Async`. -/
inductive Val (V S N : Type)
  | undefined
  | null
  | boolean (b : Bool)
  | double (n : N)
  | domString (s : S)
  | object (v : V)
  | sequence (xs : List (Val V S N))
  | asyncSequence (object method : V) (async : Bool)
  | frozenArray (v : V)
  | union (selected : Ty) (x : Val V S N)

/-- `AsyncIteratorHint`, convert.rs:14-18. -/
inductive AHint (V : Type)
  | async (method : V)
  | sync (method : V)

mutual
/-- `flattened_member_types`, types.rs:29-44. -/
def flat : Ty → List Ty
  | .union ms => flats ms
  | .undefined => [.undefined]
  | .boolean => [.boolean]
  | .double => [.double]
  | .domString => [.domString]
  | .object => [.object]
  | .sequence t => [.sequence t]
  | .asyncSequence t => [.asyncSequence t]
  | .frozenArray t => [.frozenArray t]
  | .nullable t => [.nullable t]

/-- The loop of `flattened_member_types`, types.rs:33-35. -/
def flats : List Ty → List Ty
  | [] => []
  | m :: ms => flat m ++ flats ms
end

mutual
/-- `includes_undefined`, types.rs:46-52. -/
def includesUndefined : Ty → Bool
  | .union ms => anyUndefined ms
  | .undefined => true
  | _ => false

/-- The `any` of `includes_undefined`, types.rs:48. -/
def anyUndefined : List Ty → Bool
  | [] => false
  | m :: ms => includesUndefined m || anyUndefined ms
end

mutual
/-- `contains_string_type`, `contains_async_sequence_type`, `contains_sequence_type` and
`contains_frozen_array_type`, types.rs:62-94, which differ in the test for one type. -/
def containsTy (p : Ty → Bool) : Ty → Bool
  | .union ms => anyContains p ms
  | .nullable t => containsTy p t
  | .undefined => p .undefined
  | .boolean => p .boolean
  | .double => p .double
  | .domString => p .domString
  | .object => p .object
  | .sequence t => p (.sequence t)
  | .asyncSequence t => p (.asyncSequence t)
  | .frozenArray t => p (.frozenArray t)

/-- The `any` of these, types.rs:64. -/
def anyContains (p : Ty → Bool) : List Ty → Bool
  | [] => false
  | m :: ms => containsTy p m || anyContains p ms
end

/-- `is_string_type`, types.rs:17-19. -/
def Ty.isString : Ty → Bool
  | .domString => true
  | _ => false

/-- `matches!(t, IdlType::AsyncSequence(_))`, convert.rs:298, types.rs:26. -/
def Ty.isAsync : Ty → Bool
  | .asyncSequence _ => true
  | _ => false

/-- `if let IdlType::Sequence(_) = t`, convert.rs:350. -/
def Ty.isSequence : Ty → Bool
  | .sequence _ => true
  | _ => false

/-- `if let IdlType::FrozenArray(_) = t`, convert.rs:371. -/
def Ty.isFrozen : Ty → Bool
  | .frozenArray _ => true
  | _ => false

/-- `matches!(t, IdlType::Nullable(_))`, convert.rs:279. -/
def Ty.isNullable : Ty → Bool
  | .nullable _ => true
  | _ => false

variable {σ ε V S N Y : Type}

/-- `type_error`, convert.rs:20-23. -/
def throwType {α : Type} (R : Rt σ ε V S N Y) : M σ ε α := fun s =>
  (.error (.js (R.typeError s).1), (R.typeError s).2)

/-- The digits of `index_to_property_key`, /repo/webidl/src/to_js.rs:70-79: the buffer is
filled from its end. -/
def digitLoop (n : Nat) (buf : List Nat) : List Nat :=
  if h : n = 0 then buf else digitLoop (n / 10) ((48 + n % 10) :: buf)
termination_by n
decreasing_by omega

/-- `index_to_property_key`, to_js.rs:60-85.  The buffer has room for 20 digits, see
`C91_index_key`. -/
def indexKey (n : Nat) : List Nat := if n = 0 then [48] else digitLoop n []

/-- The loop that fills an array, convert.rs:179-183, 248-252. -/
def fill (R : Rt σ ε V S N Y) (arr : V) : Nat → List V → M σ ε Unit
  | _, [] => pure ()
  | i, x :: xs => do
    let key ← R.allocString (indexKey i)
    R.createData arr key x
    fill R arr (i + 1) xs

mutual
/-- `convert_idl_to_js`, convert.rs:159-195. -/
def toJs (R : Rt σ ε V S N Y) : Ty → Val V S N → M σ ε V
  | .undefined, .undefined => pure R.vUndefined
  | .nullable _, .null => pure R.vNull
  | .boolean, .boolean b => pure (R.vBool b)
  | .double, .double n => pure (R.vNumber n)
  | .domString, .domString s => pure (R.vString s)
  | .object, .object o => pure o
  | .sequence t, .sequence xs => do
    let js ← toJsAll R t xs
    let arr ← R.allocArray js.length
    fill R arr 0 js
    pure arr
  | .frozenArray _, .frozenArray o => pure o
  | .asyncSequence _, .asyncSequence o _ _ => pure o
  | .union _, .union t x => toJs R t x
  | _, _ => throwType R

/-- The elements of a sequence, convert.rs:173-176, 235-238. -/
def toJsAll (R : Rt σ ε V S N Y) : Ty → List (Val V S N) → M σ ε (List V)
  | _, [] => pure []
  | t, x :: xs => do
    let y ← toJs R t x
    let ys ← toJsAll R t xs
    pure (y :: ys)
end

/-- `create_frozen_array`, convert.rs:228-256. -/
def createFrozen (R : Rt σ ε V S N Y) (t : Ty) (xs : List (Val V S N)) : M σ ε V := do
  let js ← toJsAll R t xs
  if js.length > R.limit then M.stop (.limit js.length R.limit)
  else do
    let arr ← R.allocArray js.length
    fill R arr 0 js
    R.freeze arr
    pure arr

/-- The loop of `create_sequence_from_iterable`, convert.rs:211-225.  It ends because the
limit is reached: `room` is the number of elements that are still allowed. -/
def collect (R : Rt σ ε V S N Y) (C : V → M σ ε (Val V S N)) (it : V) :
    Nat → List (Val V S N) → M σ ε (List (Val V S N))
  | 0, out => do
    match ← R.step it with
    | none => pure out
    | some _ => M.stop (.limit (out.length + 1) R.limit)
  | room + 1, out => do
    match ← R.step it with
    | none => pure out
    | some v => do
      let x ← C v
      collect R C it room (out ++ [x])

/-- `create_sequence_from_iterable`, convert.rs:197-226. -/
def createSequence (R : Rt σ ε V S N Y) (C : V → M σ ε (Val V S N)) (v method : V) :
    M σ ε (List (Val V S N)) := do
  if R.isObject v then do
    let it ← R.getIterator v method
    collect R C it R.limit []
  else throwType R

/-- `well_known_symbol` and `get_method`, convert.rs:67-71. -/
def methodOf (R : Rt σ ε V S N Y) (v : V) (sym : Sym) : M σ ε (Option V) := do
  let y ← R.symbol sym
  R.getMethod v y

/-- The method of a `sequence` or `FrozenArray`, convert.rs:60-73, 80-93. -/
def seqMethod (R : Rt σ ε V S N Y) (hint : Option V) (v : V) : M σ ε V :=
  match hint with
  | some m => pure m
  | none =>
    if R.isObject v then do
      match ← methodOf R v .iterator with
      | some m => pure m
      | none => throwType R
    else throwType R

/-- The method of an `async_sequence`, convert.rs:105-133. -/
def asyncMethod (R : Rt σ ε V S N Y) (hint : Option (AHint V)) (v : V) : M σ ε (AHint V) :=
  match hint with
  | some h => pure h
  | none => do
    match ← methodOf R v .asyncIterator with
    | some m => pure (.async m)
    | none => do
      match ← methodOf R v .iterator with
      | some m => pure (.sync m)
      | none => throwType R

/-- `IdlValue::AsyncSequence`, convert.rs:135-144. -/
def asyncVal (v : V) : AHint V → Val V S N
  | .async m => .asyncSequence v m true
  | .sync m => .asyncSequence v m false

/-- A converter for the members of a union. -/
abbrev Conv (σ ε V S N α : Type) :=
  α → Option V → Option (AHint V) → V → M σ ε (Val V S N)

/-- `IdlValue::Union`, convert.rs:323-326. -/
def pick (t : Ty) (m : M σ ε (Val V S N)) : M σ ε (Val V S N) := do
  let x ← m
  pure (.union t x)

/-- The string fallback and the error, convert.rs:390-399. -/
def unionString {types : List Ty} (R : Rt σ ε V S N Y)
    (C : Conv σ ε V S N {t : Ty // t ∈ types}) (v : V) : M σ ε (Val V S N) :=
  match types.attach.find? (fun t => t.1.isString) with
  | some t => pick t.1 (C t none none v)
  | none => throwType R

/-- `FrozenArray<T>` in a union, convert.rs:368-387. -/
def unionFrozen {types : List Ty} (R : Rt σ ε V S N Y)
    (C : Conv σ ε V S N {t : Ty // t ∈ types}) (v : V) : M σ ε (Val V S N) :=
  match types.attach.find? (fun t => t.1.isFrozen) with
  | some t => do
    match ← methodOf R v .iterator with
    | some m => pick t.1 (C t (some m) none v)
    | none => unionString R C v
  | none => unionString R C v

/-- `sequence<T>` in a union, convert.rs:347-366. -/
def unionSequence {types : List Ty} (R : Rt σ ε V S N Y)
    (C : Conv σ ε V S N {t : Ty // t ∈ types}) (v : V) : M σ ε (Val V S N) :=
  match types.attach.find? (fun t => t.1.isSequence) with
  | some t => do
    match ← methodOf R v .iterator with
    | some m => pick t.1 (C t (some m) none v)
    | none => unionFrozen R C v
  | none => unionFrozen R C v

/-- `async_sequence<T>` in a union, convert.rs:292-345. -/
def unionAsync {types : List Ty} (R : Rt σ ε V S N Y)
    (C : Conv σ ε V S N {t : Ty // t ∈ types}) (v : V) : M σ ε (Val V S N) :=
  match types.attach.find? (fun t => t.1.isAsync) with
  | some t =>
    if !(types.any (containsTy Ty.isString)) || !R.isStringObject v then do
      match ← methodOf R v .asyncIterator with
      | some m => pick t.1 (C t none (some (.async m)) v)
      | none => do
        match ← methodOf R v .iterator with
        | some m => pick t.1 (C t none (some (.sync m)) v)
        | none => unionSequence R C v
    else unionSequence R C v
  | none => unionSequence R C v

/-- `convert_js_to_union`, convert.rs:258-400, after `flattened_member_types`: `und` is
`includes_undefined` and `C` converts to a member. -/
def unionWith {types : List Ty} (R : Rt σ ε V S N Y) (und : Bool)
    (C : Conv σ ε V S N {t : Ty // t ∈ types}) (v : V) : M σ ε (Val V S N) :=
  if und && R.isUndefined v then pure (.union .undefined .undefined)
  else
    match if R.isNull v || R.isUndefined v then types.find? Ty.isNullable else none with
    | some t => pure (.union t .null)
    | none => if R.isObject v then unionAsync R C v else unionString R C v

mutual
theorem flat_le : ∀ t u : Ty, u ∈ flat t → sizeOf u ≤ sizeOf t
  | .union ms, u, h => by
    have := flats_lt ms u (by simpa [flat] using h)
    simp only [Ty.union.sizeOf_spec]; omega
  | .undefined, u, h => by simp [flat] at h; simp [h]
  | .boolean, u, h => by simp [flat] at h; simp [h]
  | .double, u, h => by simp [flat] at h; simp [h]
  | .domString, u, h => by simp [flat] at h; simp [h]
  | .object, u, h => by simp [flat] at h; simp [h]
  | .sequence t, u, h => by simp [flat] at h; simp [h]
  | .asyncSequence t, u, h => by simp [flat] at h; simp [h]
  | .frozenArray t, u, h => by simp [flat] at h; simp [h]
  | .nullable t, u, h => by simp [flat] at h; simp [h]
theorem flats_lt : ∀ (ms : List Ty) (u : Ty), u ∈ flats ms → sizeOf u < sizeOf ms
  | [], u, h => by simp [flats] at h
  | m :: ms, u, h => by
    rcases List.mem_append.mp (by simpa [flats] using h) with h | h
    · have := flat_le m u h
      simp only [List.cons.sizeOf_spec]; omega
    · have := flats_lt ms u h
      simp only [List.cons.sizeOf_spec]; omega
end

/-- `convert_js_to_idl_with_hints`, convert.rs:33-157. -/
def convH (R : Rt σ ε V S N Y) (t : Ty) (hi : Option V) (ha : Option (AHint V)) (v : V) :
    M σ ε (Val V S N) :=
  match t with
  | .undefined => if R.isUndefined v then pure .undefined else throwType R
  | .boolean => do
    let b ← R.toBoolean v
    pure (.boolean b)
  | .double => do
    let n ← R.toNumber v
    pure (.double n)
  | .domString => do
    let s ← R.toStr v
    pure (.domString s)
  | .object => if R.isObject v then pure (.object v) else throwType R
  | .sequence e => do
    let m ← seqMethod R hi v
    let xs ← createSequence R (fun w => convH R e none none w) v m
    pure (.sequence xs)
  | .frozenArray e => do
    let m ← seqMethod R hi v
    let xs ← createSequence R (fun w => convH R e none none w) v m
    let arr ← createFrozen R e xs
    pure (.frozenArray arr)
  | .asyncSequence _ =>
    if R.isObject v then do
      let h ← asyncMethod R ha v
      pure (asyncVal v h)
    else throwType R
  | .union ms =>
    unionWith (types := flats ms) R (includesUndefined (.union ms))
      (fun u a b w => convH R u.1 a b w) v
  | .nullable e =>
    if R.isNull v || R.isUndefined v then pure .null else convH R e none none v
termination_by sizeOf t
decreasing_by
  · simp only [Ty.sequence.sizeOf_spec]; omega
  · simp only [Ty.frozenArray.sizeOf_spec]; omega
  · have := flats_lt ms u.1 u.2
    simp only [Ty.union.sizeOf_spec]; omega
  · simp only [Ty.nullable.sizeOf_spec]; omega

/-- `convert_js_to_idl`, convert.rs:25-31. -/
def convert (R : Rt σ ε V S N Y) (t : Ty) (v : V) : M σ ε (Val V S N) :=
  convH R t none none v

/-! ## Overloads -/

/-- `Overload`, overload.rs:9-14.  `optional` is true for `Optionality::Optional`. -/
structure Overload where
  id : String
  types : List Ty
  optional : List Bool
deriving Repr

/-- `OverloadArg`, overload.rs:16-20. -/
inductive Arg (V S N : Type)
  | missing
  | value (x : Val V S N)

/-- `TypeCategory`, overload.rs:212-222. -/
inductive Cat
  | undefined | boolean | numeric | string | object | asyncSequence | sequenceLike | other
deriving DecidableEq, Repr

/-- `category`, overload.rs:224-236. -/
def category : Ty → Cat
  | .union _ => .other
  | .nullable t => category t
  | .undefined => .undefined
  | .boolean => .boolean
  | .double => .numeric
  | .domString => .string
  | .object => .object
  | .asyncSequence _ => .asyncSequence
  | .sequence _ | .frozenArray _ => .sequenceLike

/-- `are_distinguishable`, overload.rs:238-250.  The code takes the members of `a` one by one,
then those of `b`; the model takes the pairs of members of unions in unions at once. -/
def distinguishable (a b : Ty) : Bool :=
  (flat a).all fun x => (flat b).all fun y => category x != category y

/-- `o.types[i]`, where all overloads have the same number of types. -/
def Overload.at (o : Overload) (i : Nat) : Ty := o.types.getD i .undefined

/-- The pairs of one turn of the loop of `distinguishing_argument_index`,
overload.rs:192-203. -/
def allDistinguishable (i : Nat) : List Overload → Bool
  | [] => true
  | o :: os => os.all (fun p => distinguishable (o.at i) (p.at i)) && allDistinguishable i os

/-- `distinguishing_argument_index`, overload.rs:190-210. -/
def distIndex (s : List Overload) : Option Nat :=
  (List.range (s.headD ⟨"", [], []⟩).types.length).find? (fun i => allDistinguishable i s)

/-- One argument, overload.rs:60-67, 173-180. -/
def convArg (R : Rt σ ε V S N Y) (o : Overload) (args : List V) (i : Nat) :
    M σ ε (Arg V S N) :=
  match args[i]? with
  | none => M.stop .panic
  | some v =>
    if o.optional.getD i false && R.isUndefined v then pure .missing
    else do
      let x ← convert R (o.at i) v
      pure (.value x)

/-- The loops over arguments, overload.rs:59-69, 172-182: `n` arguments from `i` on. -/
def convArgs (R : Rt σ ε V S N Y) (o : Overload) (args : List V) :
    Nat → Nat → M σ ε (List (Arg V S N))
  | _, 0 => pure []
  | i, n + 1 => do
    let a ← convArg R o args i
    let as ← convArgs R o args (i + 1) n
    pure (a :: as)

/-- The rest of the choice when no iterator decides it, overload.rs:152-164. -/
def byString (R : Rt σ ε V S N Y) (s : List Overload) (i : Nat) : M σ ε (List Overload) :=
  let s' := if 1 < s.length && s.any (fun o => containsTy Ty.isString (o.at i))
    then s.filter (fun o => containsTy Ty.isString (o.at i)) else s
  if s'.length = 1 then pure s' else throwType R

/-- `s.retain(..)`, then the argument of the only overload left, overload.rs:102-117,
133-148. -/
def retain (R : Rt σ ε V S N Y) (s : List Overload) (i : Nat) (p : Ty → Bool)
    (hi : Option V) (ha : Option (AHint V)) (v : V) :
    M σ ε (List Overload × Option (Arg V S N)) :=
  match s.filter (fun o => containsTy p (o.at i)) with
  | [o] => do
    let x ← convH R (o.at i) hi ha v
    pure ([o], some (.value x))
  | _ => throwType R

/-- The choice by `@@iterator`, overload.rs:120-150. -/
def bySequence (R : Rt σ ε V S N Y) (s : List Overload) (i : Nat) (v : V) :
    M σ ε (List Overload × Option (Arg V S N)) :=
  let byStr := do
    let s' ← byString R s i
    pure (s', none)
  if R.isObject v && (s.any (fun o => containsTy Ty.isSequence (o.at i))
      || s.any (fun o => containsTy Ty.isFrozen (o.at i))) then do
    match ← methodOf R v .iterator with
    | some m =>
      if s.any (fun o => containsTy Ty.isSequence (o.at i)) then
        retain R s i Ty.isSequence (some m) none v
      else retain R s i Ty.isFrozen (some m) none v
    | none => byStr
  else byStr

/-- The choice at the distinguishing argument, overload.rs:72-165: the overloads that are
left and, if it has been converted already, the argument. -/
def choose (R : Rt σ ε V S N Y) (s : List Overload) (i : Nat) (v : V) :
    M σ ε (List Overload × Option (Arg V S N)) :=
  if R.isObject v && s.any (fun o => containsTy Ty.isAsync (o.at i))
      && !(s.any (fun o => containsTy Ty.isString (o.at i)) && R.isStringObject v) then do
    match ← methodOf R v .asyncIterator with
    | some m => retain R s i Ty.isAsync none (some (.async m)) v
    | none => do
      match ← methodOf R v .iterator with
      | some m => retain R s i Ty.isAsync none (some (.sync m)) v
      | none => bySequence R s i v
  else bySequence R s i v

/-- `maxarg`, overload.rs:38. -/
def maxArg (os : List Overload) : Nat := os.foldl (fun m o => max m o.types.length) 0

/-- `resolve_overload`, overload.rs:33-188: the overload and its arguments. -/
def resolve (R : Rt σ ε V S N Y) (os : List Overload) (args : List V) :
    M σ ε (Overload × List (Arg V S N)) :=
  let n := min (maxArg os) args.length
  match os.filter (fun o => o.types.length == n) with
  | [] => throwType R
  | [o] => do
    let xs ← convArgs R o args 0 n
    pure (o, xs)
  | o :: p :: s =>
    match distIndex (o :: p :: s) with
    | none => throwType R
    | some d => do
      let xs ← convArgs R o args 0 d
      match args[d]? with
      | none => M.stop .panic
      | some v => do
        match ← choose R (o :: p :: s) d v with
        | ([], _) => M.stop .panic
        | (q :: _, some a) => do
          let ys ← convArgs R q args (d + 1) (n - (d + 1))
          pure (q, xs ++ a :: ys)
        | (q :: _, none) => do
          let ys ← convArgs R q args d (n - d)
          pure (q, xs ++ ys)

end Verif.WebIdl
