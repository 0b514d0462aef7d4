/-!
# Model of the relation engine of types-ts-interned

Types are numbers (identifiers of the interned types); a `Store` says what an identifier stands for.
The rules for one pair of types are modelled as a formula (`Goal`) over further questions, read from
left to right with short-circuiting, exactly as the Rust code asks them; the engine (`relate`) is the
part of the code that answers questions from a cache, assumes success on cycles and at its limits,
and stores what it found.

Not modelled: reasons (`explain_assignable`, the `record` flag), the intrinsic string types
(`Uppercase<T>` and the like, `NoInfer`, `BuiltinIteratorReturn`).
Parts of the code that ask no question of the relation engine are functions of the store here:
`normalize` (the evaluator; in the code it may ask the engine about the operands of a conditional
type), `expand`, `spread`, the union with undefined, the interning of a shape, the match of a string
with a template.
-/

namespace Verif.Relate

/-- Identifiers of types (ids.rs `TypeId`). -/
abbrev Id := Nat

/-- shape.rs 6-11 `Accessibility` -/
inductive Access where
  | pub | prot | priv
  deriving DecidableEq, Repr

/-- shape.rs 36-42 `PropKey`; names are numbers. -/
inductive PropKey where
  | str (n : Nat) | num (n : Int) | sym (n : Nat)
  deriving DecidableEq, Repr

/-- relate.rs 141-146 `PropKeyKind` -/
inductive KeyKind where
  | str | num | sym
  deriving DecidableEq, Repr

/-- shape.rs 13-32, 69-74 `PropData`, `Property` -/
structure Property where
  key : PropKey
  ty : Id
  optional : Bool := false
  readonly : Bool := false
  access : Option Access := none
  isMethod : Bool := false
  origin : Option Nat := none
  declaredOn : Option Nat := none
  deriving DecidableEq, Repr

/-- shape.rs 76-82 `Indexer` -/
structure Indexer where
  keyType : Id
  valueType : Id
  readonly : Bool := false
  deriving DecidableEq, Repr

/-- signature.rs 38-45 `Param` -/
structure Param where
  ty : Id
  optional : Bool := false
  rest : Bool := false
  deriving DecidableEq, Repr

/-- signature.rs 47-54 `Signature`; of the type parameters only their number is read here. -/
structure Sig where
  params : List Param
  ret : Id
  typeParams : Nat := 0
  thisParam : Option Id := none
  deriving DecidableEq, Repr

/-- shape.rs 84-91 `Shape` -/
structure Shape where
  properties : List Property := []
  calls : List Sig := []
  constructs : List Sig := []
  indexers : List Indexer := []
  deriving DecidableEq, Repr

/-- kind.rs 95-102 `TupleElem` -/
structure Elem where
  ty : Id
  optional : Bool := false
  rest : Bool := false
  readonly : Bool := false
  deriving DecidableEq, Repr

/-- signature.rs 5-11 `TypeParamVariance` -/
inductive Variance where
  | inn | out | inout
  deriving DecidableEq, Repr

/-- kind.rs 120-198 `TypeKind`. `deferred` stands for the kinds mapped, indexed access and keyof;
`other` for this and infer; both are never looked into. Numbers and names are coded as numbers. -/
inductive Kind where
  | any | unknown | never | void | null | undef
  | boolean | number | string | bigint | symbol | uniqueSymbol
  | boolLit (b : Bool) | numLit (n : Nat) | strLit (n : Nat) | bigLit (n : Int)
  | tuple (es : List Elem)
  | array (ty : Id) (readonly : Bool)
  | union (ms : List Id) | inter (ms : List Id)
  | object (s : Shape)
  | callable (overloads : List Sig)
  | ref (d : Nat) (args : List Id)
  | param (p : Nat)
  | predicate
  | conditional (yes no : Id)
  | template (t : Nat)
  | deferred | other
  | emptyObject
  deriving DecidableEq, Repr

/-- The store and the hooks of a `RelateCtx` (relate.rs 150-153, 241-248, 264-274). -/
structure Store where
  /-- store.rs `type_kind`, with objects and signatures resolved -/
  kind : Id → Kind
  /-- relate.rs 2945-2988 `normalize_type` -/
  normalize : Id → Id := id
  /-- relate.rs 3515-3520 `expand_ref` -/
  expand : Nat → List Id → Option Id := fun _ _ => none
  /-- relate.rs 245-247 `type_param_decls`: the declared variance of each parameter -/
  variance : Nat → Option (List (Option Variance)) := fun _ => none
  /-- relate.rs 2937-2939: the union of a type and undefined -/
  orUndefined : Id → Id := id
  /-- relate.rs 2107-2170 `spread_element_type` -/
  spread : Id → Id := id
  /-- relate.rs 2922-2927: interning a shape and reading it back -/
  intern : Shape → Shape := id
  /-- relate.rs 3507-3513: the other way to write a key, `"0"` for `0` and back -/
  otherKey : PropKey → Option PropKey := fun _ => none
  /-- relate.rs 3382-3386: the names that are canonical array indices -/
  indexName : Nat → Bool := fun _ => false
  /-- relate.rs 1704-1797 `string_matches_template` -/
  strTemplate : Nat → Nat → Bool := fun _ _ => false
  /-- relate.rs 1957-1977: a template against a template -/
  templates : Nat → Nat → Bool := fun _ _ => false
  /-- relate.rs 3477-3494: whether a key type that is neither a string, number or symbol type nor a
  union or intersection takes keys of a kind (the code asks the relation engine) -/
  oddKey : Id → KeyKind → Bool := fun _ _ => false
  /-- relate.rs 152 `is_same_origin_private_member` -/
  samePrivate : Option (Property → Property → Bool) := none
  anyId : Id := 0
  numberId : Id := 0

/-- options.rs `TypeOptions` -/
structure Opts where
  strictNull : Bool := true
  strictFunction : Bool := true
  exactOptional : Bool := false
  uncheckedIndex : Bool := false

/-- relate.rs 54-66 `RelationMode` -/
structure Mode where
  bivariant : Bool := false
  skip : Bool := false
  deriving DecidableEq, Repr

/-- What the rules for a pair of types ask for. `ask inc a b m` is the question whether `a` is
assignable to `b`, asked `1 + inc` levels below the pair. `and` and `or` are read from left to
right and stop early. -/
inductive Goal where
  | yes | no
  | ask (inc : Nat) (a b : Id) (m : Mode)
  | and (g h : Goal)
  | or (g h : Goal)

def Goal.ofBool (b : Bool) : Goal := if b then .yes else .no

def Goal.all : List Goal → Goal
  | [] => .yes
  | g :: gs => .and g (.all gs)

def Goal.any : List Goal → Goal
  | [] => .no
  | g :: gs => .or g (.any gs)

section rules
variable (S : Store) (o : Opts) (keyDepth : Nat)

/-- relate.rs 1832-1990 `assignable_special`, without the intrinsic string types -/
def special (src dst : Kind) : Option Bool :=
  if !o.strictNull && ((src = .null || src = .undef) || (dst = .null || dst = .undef)) then some true
  else
  match src, dst with
  | .param a, .param b => some (a = b)
  | _, .param _ => some true
  | .param _, d => some (d = .any || d = .unknown)
  | .any, _ => some true
  | _, .any => some true
  | _, .unknown => some true
  | .unknown, _ => some false
  | .emptyObject, d => some (d = .emptyObject)
  | .never, _ => some true
  | _, .never => some false
  | .void, .void => some true
  | .void, .undef => some true
  | .undef, .void => some true
  | .void, .emptyObject => some (!o.strictNull)
  | .void, .union _ => none
  | .void, .inter _ => none
  | .void, .ref _ _ => none
  | .void, .deferred => none
  | .void, .conditional _ _ => none
  | .void, _ => some false
  | s, .emptyObject => if !o.strictNull then some true else some (!(s = .null || s = .undef))
  | .null, .null => some true
  | .undef, .undef => some true
  | .null, .union _ => none
  | .null, .inter _ => none
  | .null, .ref _ _ => none
  | .null, .deferred => none
  | .null, .conditional _ _ => none
  | .undef, .union _ => none
  | .undef, .inter _ => none
  | .undef, .ref _ _ => none
  | .undef, .deferred => none
  | .undef, .conditional _ _ => none
  | .null, _ => some false
  | .undef, _ => some false
  | .union _, .null => none
  | .inter _, .null => none
  | .ref _ _, .null => none
  | .deferred, .null => none
  | .conditional _ _, .null => none
  | .union _, .undef => none
  | .inter _, .undef => none
  | .ref _ _, .undef => none
  | .deferred, .undef => none
  | .conditional _ _, .undef => none
  | _, .null => some false
  | _, .undef => some false
  | .boolLit _, .boolean => some true
  | .numLit _, .number => some true
  | .strLit _, .string => some true
  | .bigLit _, .bigint => some true
  | .strLit n, .template t => some (S.strTemplate n t)
  | .template s, .template t => some (S.templates s t)
  | .template _, .string => some true
  | .uniqueSymbol, .symbol => some true
  | .predicate, .boolean => some true
  | .boolean, .predicate => some true
  | .predicate, .predicate => some true
  | _, _ => none

/-- relate.rs 2932-2943 `optional_type`, the flavor `Property` -/
def optProp (ty : Id) (optional : Bool) : Id :=
  if optional && !o.exactOptional then S.orUndefined ty else ty

/-- relate.rs 2932-2943 `optional_type`, the flavors `Parameter` and `TupleElement` -/
def optElem (ty : Id) (optional : Bool) : Id :=
  if optional then S.orUndefined ty else ty

/-- relate.rs 2932-2943 `optional_type`, the flavor `IndexerValue` (never optional) -/
def idxValue (ty : Id) : Id :=
  if o.uncheckedIndex then S.orUndefined ty else ty

/-- relate.rs 3445-3495 `indexer_key_accepts_prop_kind(_inner)`; the first argument is the number of
levels left. -/
def keyAccepts : Nat → Id → KeyKind → Bool
  | 0, _, _ => false
  | n + 1, t, k =>
    match S.kind t with
    | .string => k = .str || k = .num
    | .strLit _ => k = .str || k = .num
    | .number => k = .num
    | .numLit _ => k = .num
    | .symbol => k = .sym
    | .uniqueSymbol => k = .sym
    | .union ms => ms.any fun m => keyAccepts n m k
    | .inter ms => ms.all fun m => keyAccepts n m k
    | _ => S.oddKey t k

/-- relate.rs 3419-3431 `indexer_key_covers` -/
def keyCovers (src dst : Id) : Bool :=
  [KeyKind.str, .num, .sym].all fun k => !keyAccepts S keyDepth dst k || keyAccepts S keyDepth src k

/-- relate.rs 3433-3439 `indexer_key_specificity` -/
def specificity (t : Id) : Nat :=
  ([KeyKind.str, .num, .sym].filter fun k => keyAccepts S keyDepth t k).length

/-- `Iterator::min_by_key`: the first of the smallest -/
def minBy {A : Type} (f : A → Nat) : List A → Option A
  | [] => none
  | x :: xs =>
    match minBy f xs with
    | none => some x
    | some y => if f y < f x then some y else some x

/-- relate.rs 3378-3386, 3496-3502 `prop_key_kind`, with canonical index names counted as numbers -/
def keyKind : PropKey → KeyKind
  | .str n => if S.indexName n then .num else .str
  | .num _ => .num
  | .sym _ => .sym

/-- relate.rs 3370-3391 `indexer_for_prop` -/
def indexerFor (s : Shape) (key : PropKey) : Option Indexer :=
  minBy (fun i => specificity S keyDepth i.keyType)
    (s.indexers.filter fun i => keyAccepts S keyDepth i.keyType (keyKind S key))

/-- relate.rs 3407-3418 `find_matching_indexer` -/
def matchingIndexer (s : Shape) (dst : Indexer) : Option Indexer :=
  minBy (fun i => specificity S keyDepth i.keyType)
    (s.indexers.filter fun i => keyCovers S keyDepth i.keyType dst.keyType)

/-- relate.rs 3496-3513 `find_property`. The binary search over the sorted properties is a search
for the key here; a shape has no key twice. -/
def findProperty (s : Shape) (key : PropKey) : Option Property :=
  match s.properties.find? fun p => p.key = key with
  | some p => some p
  | none =>
    match S.otherKey key with
    | none => none
    | some k => s.properties.find? fun p => p.key = k

/-- relate.rs 3336-3368 `private_compatible` -/
def privateCompatible (src dst : Property) : Bool :=
  let a := src.access.getD .pub
  let b := dst.access.getD .pub
  if a = .pub && b = .pub then true
  else if a = .pub || b = .pub then false
  else if a ≠ b then false
  else
    match S.samePrivate with
    | some f => f src dst
    | none =>
      if src.declaredOn.isSome && src.declaredOn = dst.declaredOn then true
      else src.origin.isSome && src.origin = dst.origin

/-- relate.rs 2726-2752 `effective_param_type` -/
def paramType (sig : Sig) (i : Nat) : Id :=
  match sig.params[i]? with
  | some p => optElem S (if p.rest then S.spread p.ty else p.ty) p.optional
  | none =>
    match sig.params.findIdx? (·.rest) with
    | some r =>
      match sig.params[r]? with
      | some p => if r ≤ i then optElem S (S.spread p.ty) p.optional else S.anyId
      | none => S.anyId
    | none => S.anyId

/-- relate.rs 2599-2892 `relate_signature`. The parameters beyond the last one of the target are
looked at only if the target has a rest parameter. -/
def signature (inc : Nat) (src dst : Sig) (m : Mode) : Goal :=
  let biv := !o.strictFunction || m.bivariant
  if src.typeParams ≠ dst.typeParams then .no
  else
    .and
      (match src.thisParam, dst.thisParam with
        | some s, some d => .ask inc d s m
        | some _, none => .no
        | none, some d => .ask inc d S.anyId m
        | none, none => .yes)
      (if (src.params.filter fun p => !p.optional && !p.rest).length >
          (dst.params.filter fun p => !p.optional && !p.rest).length then .no
        else
          let n := if dst.params.any (·.rest) then max src.params.length dst.params.length
            else dst.params.length
          .and
            (.all ((List.range n).map fun i =>
              let s := paramType S src i
              let d := paramType S dst i
              if biv then .or (.ask inc s d m) (.ask inc d s m) else .ask inc d s m))
            (if S.kind dst.ret = .void then .yes else .ask inc src.ret dst.ret m))

/-- relate.rs 2472-2521 `relate_callable`: each overload of the target has one of the source -/
def callable (inc : Nat) (src dst : List Sig) (m : Mode) : Goal :=
  .all (dst.map fun d => .any (src.map fun s => signature S o inc s d m))

/-- relate.rs 2995-3332 `relate_object`, the properties of the target -/
def property (src : Shape) (m : Mode) (p : Property) : Goal :=
  match findProperty S src p.key with
  | some q =>
    if !privateCompatible S q p then .no
    else if !p.readonly && q.readonly then .no
    else if !p.optional && q.optional then .no
    else .ask 1 (optProp S o q.ty q.optional) (optProp S o p.ty p.optional)
      (if q.isMethod || p.isMethod then { m with bivariant := true } else m)
  | none =>
    if p.optional then .yes
    else
      match indexerFor S keyDepth src p.key with
      | some i =>
        if !p.readonly && i.readonly then .no
        else .ask 1 (idxValue S o i.valueType) (optProp S o p.ty p.optional) m
      | none => .no

/-- relate.rs 3150-3232 `relate_object`, the index signatures of the target -/
def indexer (src : Shape) (m : Mode) (d : Indexer) : Goal :=
  match matchingIndexer S keyDepth src d with
  | some i =>
    if !d.readonly && i.readonly then .no
    else .ask 1 (idxValue S o i.valueType) (idxValue S o d.valueType) m
  | none =>
    if src.indexers.isEmpty then
      .all ((src.properties.filter fun p => keyAccepts S keyDepth d.keyType (keyKind S p.key)).map
        fun p => .ask 1 (optProp S o p.ty p.optional) (idxValue S o d.valueType) m)
    else .no

/-- relate.rs 2995-3332 `relate_object` -/
def object (src dst : Shape) (m : Mode) : Goal :=
  .and (.all (dst.properties.map (property S o keyDepth src m)))
    (.and (.all (dst.indexers.map (indexer S o keyDepth src m)))
      (.and (callable S o 2 src.calls dst.calls { m with bivariant := true })
        (callable S o 2 src.constructs dst.constructs { m with bivariant := true })))

/-- relate.rs 2895-2930 `merge_intersection` -/
def merge : List Id → Option Shape
  | [] => some {}
  | t :: ts =>
    match S.kind t with
    | .object s =>
      match merge ts with
      | some r => some {
          properties := s.properties ++ r.properties
          calls := s.calls ++ r.calls
          constructs := s.constructs ++ r.constructs
          indexers := s.indexers ++ r.indexers }
      | none => none
    | _ => none

/-- Whether an element must be present. -/
def Elem.required (e : Elem) : Bool := !e.optional && !e.rest

/-- relate.rs 2285-2461 `relate_tuple`, the loop -/
def tupleLoop (m : Mode) : List Elem → List Elem → Goal
  | _, [] => .yes
  | [], d :: ds => if d.rest || d.optional then tupleLoop m [] ds else .no
  | s :: ss, d :: ds =>
    if d.rest then
      .all ((s :: ss).map fun r =>
        if !d.readonly && r.readonly then .no
        else .ask 1 (optElem S r.ty (r.optional || r.rest)) (optElem S d.ty true) m)
    else if s.rest then
      .all ((d :: ds).map fun e =>
        if !e.readonly && s.readonly then .no
        else .ask 1 (optElem S s.ty true) (optElem S e.ty (e.optional || e.rest)) m)
    else if !d.optional && s.optional then .no
    else if !d.readonly && s.readonly then .no
    else .and (.ask 1 (optElem S s.ty s.optional) (optElem S d.ty d.optional) m) (tupleLoop m ss ds)

/-- relate.rs 2247-2461 `relate_tuple` -/
def tuple (src dst : List Elem) (m : Mode) : Goal :=
  let sr := (src.filter Elem.required).length
  let dr := (dst.filter Elem.required).length
  if sr > dst.length && !src.any (·.rest) && dr = dst.length then .no
  else if dr > src.length && !src.any (·.rest) then .no
  else tupleLoop S m src dst

/-- relate.rs 1998-2101 `relate_array_to_tuple` -/
def arrayToTuple (ty : Id) (readonly : Bool) (dst : List Elem) (m : Mode) : Goal :=
  if readonly && !dst.all (·.readonly) then .no
  else if !dst.any (·.rest) then .no
  else if dst.all (·.rest) then
    match dst.find? (·.rest) with
    | some r => .ask 1 ty (S.spread r.ty) m
    | none => .no
  else if dst.any Elem.required then .no
  else .all ((dst.filter fun e => !e.rest).map fun e => .ask 1 ty (optElem S e.ty e.optional) m)

/-- relate.rs 2172-2245 `relate_tuple_to_array` -/
def tupleToArray (src : List Elem) (ty : Id) (readonly : Bool) (m : Mode) : Goal :=
  if !readonly && src.any (·.readonly) then .no
  else .all (src.map fun e =>
    .ask 1 (optElem S (if e.rest then S.spread e.ty else e.ty) e.optional) ty m)

/-- A shape without members. -/
def Shape.empty (s : Shape) : Bool :=
  s.properties.isEmpty && s.calls.isEmpty && s.constructs.isEmpty && s.indexers.isEmpty

/-- relate.rs 1396-1558 `assignable`, the last match -/
def structural (src dst : Kind) (m : Mode) : Goal :=
  match src, dst with
  | .boolLit a, .boolLit b => .ofBool (a = b)
  | .numLit a, .numLit b => .ofBool (a = b)
  | .strLit a, .strLit b => .ofBool (a = b)
  | .bigLit a, .bigLit b => .ofBool (a = b)
  | .array a ra, .array b rb => if !rb && ra then .no else .ask 1 a b m
  | .array a _, .object d =>
    if d.empty then .yes
    else
      match minBy (fun i => specificity S keyDepth i.keyType)
          (d.indexers.filter fun i => keyCovers S keyDepth S.numberId i.keyType) with
      | some i => .ask 0 a i.valueType m
      | none => .no
  | .tuple _, .object d => .ofBool d.empty
  | .tuple a, .tuple b => tuple S a b m
  | .array a r, .tuple b => arrayToTuple S a r b m
  | .tuple a, .array b r => tupleToArray S a b r m
  | .callable a, .callable b => callable S o 2 a b m
  | .callable a, .object d =>
    if !d.properties.isEmpty || !d.constructs.isEmpty || !d.indexers.isEmpty then .no
    else callable S o 3 a d.calls { m with bivariant := true }
  | .object s, .callable b =>
    if !s.properties.isEmpty || !s.constructs.isEmpty || !s.indexers.isEmpty then .no
    else callable S o 3 s.calls b { m with bivariant := true }
  | .object s, .object d => object S o keyDepth s d m
  | _, _ => .no

/-- relate.rs 1223-1394 `assignable`, unions and intersections -/
def composite (a b : Id) (src dst : Kind) (m : Mode) : Goal :=
  match src, dst with
  | .conditional y n, _ => .and (.ask 0 y b m) (.ask 0 n b m)
  | _, .conditional y n => .and (.ask 0 a y m) (.ask 0 a n m)
  | .union ms, _ => .all (ms.map fun t => .ask 0 t b m)
  | _, .union ms => .any (ms.map fun t => .ask 0 a t m)
  | _, .inter ms => .all (ms.map fun t => .ask 0 a t m)
  | .inter ms, .object d =>
    match merge S ms with
    | some s => object S o keyDepth (S.intern s) d m
    | none => .any (ms.map fun t => .ask 0 t b m)
  | .inter ms, _ => .any (ms.map fun t => .ask 0 t b m)
  | src, dst => structural S o keyDepth src dst m

/-- relate.rs 1075-1134 `assignable`, references -/
def expanded (a b : Id) (src dst : Kind) (m : Mode) : Goal :=
  let target :=
    match dst with
    | .ref d args =>
      match S.expand d args with
      | some b' => if b' ≠ b then .ask 0 a b' m else composite S o keyDepth a b src dst m
      | none => composite S o keyDepth a b src dst m
    | _ => composite S o keyDepth a b src dst m
  match src with
  | .ref d args =>
    match S.expand d args with
    | some a' => if a' ≠ a then .ask 0 a' b m else target
    | none => target
  | _ => target

/-- relate.rs 916-1011 `assignable`, references to the same definition whose parameters have a
declared variance: the questions about the arguments, and whether they decide. -/
def byVariance (src dst : Kind) (m : Mode) : List Goal × Bool :=
  match src, dst with
  | .ref d as, .ref e bs =>
    if d = e && as.length = bs.length && !as.isEmpty then
      match S.variance d with
      | some vs =>
        if vs.length = as.length then
          (((vs.zip (as.zip bs)).filterMap fun (v, x, y) =>
              match v with
              | some .out => some (.ask 0 x y m)
              | some .inn => some (.ask 0 y x m)
              | some .inout => some (.and (.ask 0 x y m) (.ask 0 y x m))
              | none => none),
            vs.all Option.isSome)
        else ([], false)
      | none => ([], false)
    else ([], false)
  | _, _ => ([], false)

/-- relate.rs 876-1558 `assignable` -/
def assignable (a b : Id) (m : Mode) : Goal :=
  if a = b then .yes
  else
    let (gs, final) := byVariance S (S.kind a) (S.kind b) m
    .and (.all gs)
      (if final then .yes
       else if !m.skip && (S.normalize a ≠ a || S.normalize b ≠ b) then
        .ask 0 (S.normalize a) (S.normalize b) m
       else
        match special S o (S.kind a) (S.kind b) with
        | some r => .ofBool r
        | none => expanded S o keyDepth a b (S.kind a) (S.kind b) m)

end rules

/-- relate.rs 36-44 `RelationKind` -/
inductive Rel where
  | assignable | comparable | strictSubtype
  deriving DecidableEq, Repr

/-- relate.rs 187-193 `RelationKey` -/
structure Key where
  src : Id
  dst : Id
  kind : Rel
  mode : Mode
  deriving DecidableEq, Repr

/-- relate.rs 88-107 `RelationLimits`, without those of templates; `none` is the step limit
`usize::MAX`, which switches the counting off. -/
structure Limits where
  steps : Option Nat := none
  depth : Nat := 64
  inProgress : Nat := 128
  keyDepth : Nat := 64

/-- A `RelateCtx`. `evict n k` says whether the cache drops the entry of `k` at its `n`-th insertion
(cache.rs 131-190 picks entries by a clock; any choice is allowed here, also dropping everything,
as a cache of size 0 does). -/
structure Ctx where
  store : Store
  opts : Opts := {}
  limits : Limits := {}
  evict : Nat → Key → Bool := fun _ _ => false

/-- The mutable part of a `RelateCtx`: cache, keys in progress, steps; `tick` counts insertions. -/
structure St where
  cache : Key → Option Bool := fun _ => none
  busy : List Key := []
  steps : Nat := 0
  tick : Nat := 0

/-- Answer a goal with answers to its questions that may change the state. -/
def runGoal (ask : Nat → Id → Id → Mode → St → Bool × St) : Goal → St → Bool × St
  | .yes, st => (true, st)
  | .no, st => (false, st)
  | .ask i a b m, st => ask i a b m st
  | .and g h, st =>
    match runGoal ask g st with
    | (true, st) => runGoal ask h st
    | (false, st) => (false, st)
  | .or g h, st =>
    match runGoal ask g st with
    | (true, st) => (true, st)
    | (false, st) => runGoal ask h st

section engine
variable (C : Ctx)

/-- The rules of the context. -/
def rules (a b : Id) (m : Mode) : Goal := assignable C.store C.opts C.limits.keyDepth a b m

def isParam : Kind → Option Nat
  | .param p => some p
  | _ => none

/-- relate.rs 706-764: what is asked for a key, `ask` answering the questions of the rules, `deep`
those of rules that are applied one level below. -/
def outcome (ask deep : Nat → Id → Id → Mode → St → Bool × St) (k : Key) (st : St) : Bool × St :=
  match k.kind with
  | .assignable => runGoal ask (rules C k.src k.dst k.mode) st
  | .comparable =>
    let s := isParam (C.store.kind k.src)
    let d := isParam (C.store.kind k.dst)
    if s.isSome || d.isSome then (s.isSome && s = d, st)
    else
      match runGoal deep (rules C k.src k.dst k.mode) st with
      | (false, st) => (false, st)
      | (true, st) => runGoal deep (rules C k.dst k.src k.mode) st
  | .strictSubtype =>
    match runGoal deep (rules C k.src k.dst k.mode) st with
    | (false, st) => (false, st)
    | (true, st) =>
      match runGoal deep (rules C k.dst k.src k.mode) st with
      | (b, st) => (!b, st)

/-- cache.rs 131-155 `insert`: the new entry is added and others, or itself, may be dropped. -/
def insert (k : Key) (b : Bool) (st : St) : St :=
  { st with
    cache := fun x => if C.evict st.tick x then none else if x = k then some b else st.cache x
    tick := st.tick + 1 }

/-- relate.rs 615-768 `relate_internal`. `rem` is the number of levels left, the limit minus `depth`;
the first argument bounds the recursion and is never smaller than `rem`. -/
def relate : Nat → Nat → Key → St → Bool × St
  | 0, _, _, st => (true, st)
  | f + 1, rem, k, st =>
    if rem = 0 then (true, st)
    else
      match st.cache k with
      | some b => (b, st)
      | none =>
        if k ∈ st.busy then (true, st)
        else if C.limits.steps.any (· ≤ st.steps) then (true, st)
        else
          let st := { st with steps := if C.limits.steps.isSome then st.steps + 1 else st.steps }
          if C.limits.inProgress ≤ st.busy.length then (true, st)
          else
            let st := { st with busy := k :: st.busy }
            let ask := fun i a b m => relate f (rem - 1 - i) ⟨a, b, .assignable, m⟩
            let deep := fun i a b m => relate f (rem - 1 - 1 - i) ⟨a, b, .assignable, m⟩
            match outcome C ask deep k st with
            | (b, st) =>
              let st := insert C k b st
              (b, { st with busy := st.busy.erase k })

/-- What a user of a `RelateCtx` can do: relate.rs 409-613 `is_assignable`,
`is_assignable_no_normalize`, `is_comparable`, `is_strict_subtype`, and `clear_cache` (401-403). -/
inductive Op where
  | assignable (a b : Id)
  | assignableRaw (a b : Id)
  | comparable (a b : Id)
  | strictSubtype (a b : Id)
  | clear

/-- The key a question is answered under. -/
def Op.key : Op → Option Key
  | .assignable a b => some ⟨a, b, .assignable, {}⟩
  | .assignableRaw a b => some ⟨a, b, .assignable, { skip := true }⟩
  | .comparable a b => some ⟨a, b, .comparable, {}⟩
  | .strictSubtype a b => some ⟨a, b, .strictSubtype, {}⟩
  | .clear => none

/-- One operation (relate.rs 409-627; the steps are counted anew at depth 0). Clearing answers
true. -/
def perform (op : Op) (st : St) : Bool × St :=
  match op.key with
  | some k =>
    relate C C.limits.depth C.limits.depth k
      { st with steps := if C.limits.steps.isSome then 0 else st.steps }
  | none => (true, { st with cache := fun _ => none })

/-- The state of a new context after some operations. -/
def after : List Op → St
  | ops => ops.foldl (fun st op => (perform C op st).2) {}

/-- The answer to an operation after others. -/
def answer (before : List Op) (op : Op) : Bool := (perform C op (after C before)).1

end engine

end Verif.Relate
