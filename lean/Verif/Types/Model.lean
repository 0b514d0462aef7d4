import Verif.Types.Intern
/-!
# The type store: kinds, order, unions, intersections, shapes

`types-ts-interned/src/{store,kind,shape,signature}.rs`. Identifiers (`TypeId`, `NameId`, …) are
numbers. Strings are lists of bytes. The operations run one after the other; how threads interleave
inside `insert_with_collision` is modelled in `Intern.lean`.
-/

namespace Verif.Types
open Verif.Harness (cmpList cmpStr cmpBool sortBy)

/-- `kind.rs` 13–17: `MappedModifier`; the derived order is the order of the variants. -/
inductive Modifier where
  | add | remove | preserve
deriving DecidableEq

/-- `kind.rs` 64–71: `IntrinsicKind`. -/
inductive IntrinsicKind where
  | uppercase | lowercase | capitalize | uncapitalize | noInfer | builtinIteratorReturn
deriving DecidableEq

/-- `kind.rs` 101–106: `TupleElem`. -/
structure TupleElem where
  ty : Nat
  optional : Bool
  rest : Bool
  readonly : Bool
deriving DecidableEq

/-- `kind.rs` 27–46: `MappedType`. -/
structure MappedType where
  param : Nat
  source : Nat
  value : Nat
  readonly : Modifier
  optional : Modifier
  nameType : Option Nat
  asType : Option Nat
deriving DecidableEq

/-- `kind.rs` 57–60: `TemplateChunk`. -/
structure TemplateChunk where
  literal : List Nat
  ty : Nat
deriving DecidableEq

/-- `kind.rs` 126–196: `TypeKind`. A number literal (`OrderedFloat<f64>`) is represented by its place
in the total order of `OrderedFloat`, under which values are also equal and hash equally. The target of
a predicate (`PredicateParam`, 116–122) is `none` for `this` and `some n` for the `n`th parameter, with
the derived order (`This` first). -/
inductive Kind where
  | any | unknown | never | void | null | undefined | boolean | number | string | bigint | symbol
  | uniqueSymbol
  | boolLit (b : Bool)
  | numLit (r : Int)
  | strLit (n : Nat)
  | bigLit (i : Int)
  | this
  | infer (param : Nat) (constraint : Option Nat)
  | tuple (elems : List TupleElem)
  | array (ty : Nat) (readonly : Bool)
  | union (members : List Nat)
  | inter (members : List Nat)
  | object (o : Nat)
  | callable (overloads : List Nat)
  | ref (dfn : Nat) (args : List Nat)
  | typeParam (p : Nat)
  | predicate (parameter : Option (Option Nat)) (asserted : Option Nat) (asserts : Bool)
  | conditional (check ext yes no : Nat) (distributive : Bool)
  | mapped (m : MappedType)
  | template (head : List Nat) (spans : List TemplateChunk)
  | indexed (obj index : Nat)
  | keyOf (ty : Nat)
  | emptyObject
  | intrinsic (k : IntrinsicKind) (ty : Nat)
deriving DecidableEq

/-- `kind.rs` 199–238: `discriminant`. -/
def Kind.discriminant : Kind → Nat
  | .any => 0
  | .unknown => 1
  | .never => 2
  | .void => 3
  | .null => 4
  | .undefined => 5
  | .boolean => 6
  | .number => 7
  | .string => 8
  | .bigint => 9
  | .symbol => 10
  | .uniqueSymbol => 11
  | .boolLit _ => 12
  | .numLit _ => 13
  | .strLit _ => 14
  | .bigLit _ => 15
  | .this => 16
  | .infer _ _ => 17
  | .tuple _ => 18
  | .array _ _ => 19
  | .union _ => 20
  | .inter _ => 21
  | .object _ => 22
  | .callable _ => 23
  | .ref _ _ => 24
  | .typeParam _ => 25
  | .predicate _ _ _ => 26
  | .conditional _ _ _ _ _ => 27
  | .mapped _ => 28
  | .template _ _ => 29
  | .indexed _ _ => 30
  | .keyOf _ => 31
  | .emptyObject => 32
  | .intrinsic _ _ => 33

/-- `shape.rs` 8–12: `Accessibility`. -/
inductive Accessibility where
  | pub | prot | priv
deriving DecidableEq

/-- `shape.rs` 16–33: `PropData`. -/
structure PropData where
  ty : Nat
  optional : Bool
  readonly : Bool
  accessibility : Option Accessibility
  isMethod : Bool
  origin : Option Nat
  declaredOn : Option Nat
deriving DecidableEq

/-- `shape.rs` 37–41: `PropKey`. -/
inductive PropKey where
  | string (n : Nat)
  | number (i : Int)
  | symbol (n : Nat)
deriving DecidableEq

/-- `shape.rs` 73–76: `Property`. -/
structure Property where
  key : PropKey
  data : PropData
deriving DecidableEq

/-- `shape.rs` 80–84: `Indexer`. -/
structure Indexer where
  keyType : Nat
  valueType : Nat
  readonly : Bool
deriving DecidableEq

/-- `shape.rs` 88–93: `Shape`. -/
structure Shape where
  properties : List Property
  callSigs : List Nat
  constructSigs : List Nat
  indexers : List Indexer
deriving DecidableEq

/-- `signature.rs` 7–11: `TypeParamVariance`. -/
inductive Variance where
  | in_ | out | inOut
deriving DecidableEq

/-- `signature.rs` 15–21: `TypeParamDecl`. -/
structure TypeParamDecl where
  id : Nat
  constraint : Option Nat
  default_ : Option Nat
  variance : Option Variance
  const_ : Bool
deriving DecidableEq

/-- `signature.rs` 37–42: `Param`. -/
structure Param where
  name : Option Nat
  ty : Nat
  optional : Bool
  rest : Bool
deriving DecidableEq

/-- `signature.rs` 46–51: `Signature`. -/
structure Signature where
  params : List Param
  ret : Nat
  typeParams : List TypeParamDecl
  thisParam : Option Nat
deriving DecidableEq

/-- `store.rs` 135–148: `PrimitiveIds`. Those that nothing modelled here reads are left out. -/
structure Primitives where
  any : Nat
  unknown : Nat
  never : Nat
  boolean : Nat
  number : Nat
  string : Nat
  bigint : Nat
deriving DecidableEq

/-- `store.rs` 162–172: `TypeStore`. An `ObjectType` is its shape (`shape.rs` 106–108). -/
structure Store where
  types : List (Nat × Kind)
  shapes : List (Nat × Shape)
  objects : List (Nat × Nat)
  sigs : List (Nat × Signature)
  names : Names
  prims : Primitives
deriving DecidableEq

/-- `store.rs` 255–273, 72–74: the fingerprint functions, which are arbitrary. -/
structure Hashes where
  type : Kind → Nat → Nat
  shape : Shape → Nat → Nat
  object : Nat → Nat → Nat
  sig : Signature → Nat → Nat
  name : List Nat → Nat → Nat

namespace Store

/-! ## Reading

Reading an identifier that is not there panics in the code. In the comparison functions the model reads
a default instead; `C48_closed` shows that the identifiers they reach are always there. -/

/-- `store.rs` 557–563: `type_kind`. -/
def kind? (st : Store) (t : Nat) : Option Kind := st.types.lookup t

def kind (st : Store) (t : Nat) : Kind := (st.kind? t).getD .any

/-- `store.rs` 510–516: `signature`. -/
def sig (st : Store) (s : Nat) : Signature := (st.sigs.lookup s).getD ⟨[], 0, [], none⟩

/-- `store.rs` 541–555: `object` and `shape`. -/
def shapeOf (st : Store) (o : Nat) : Shape :=
  (st.shapes.lookup ((st.objects.lookup o).getD 0)).getD ⟨[], [], [], []⟩

/-- `store.rs` 127–133: `NameInterner::name`. -/
def name (st : Store) (n : Nat) : List Nat := (st.names.byId.lookup n).getD []

/-! ## The order of types -/

/-- The derived order of `Option`: `None` first. -/
def cmpOption {α : Type} (cmp : α → α → Ordering) : Option α → Option α → Ordering
  | none, none => .eq
  | none, some _ => .lt
  | some _, none => .gt
  | some a, some b => cmp a b

/-- The derived order of `MappedModifier` (`kind.rs` 11). -/
def modifierRank : Modifier → Nat
  | .add => 0
  | .remove => 1
  | .preserve => 2

/-- The derived order of `IntrinsicKind` (`kind.rs` 62). -/
def intrinsicRank : IntrinsicKind → Nat
  | .uppercase => 0
  | .lowercase => 1
  | .capitalize => 2
  | .uncapitalize => 3
  | .noInfer => 4
  | .builtinIteratorReturn => 5

/-- The derived order of `Accessibility` (`shape.rs` 6). -/
def accessRank : Accessibility → Nat
  | .pub => 0
  | .prot => 1
  | .priv => 2

/-- `shape.rs` 62–68: `PropKey::discriminant`. -/
def keyRank : PropKey → Nat
  | .string _ => 0
  | .number _ => 1
  | .symbol _ => 2

/-- `shape.rs` 44–60: `PropKey::cmp_with`. -/
def cmpKey (st : Store) (a b : PropKey) : Ordering :=
  (compare (keyRank a) (keyRank b)).then
    (match a, b with
    | .string a, .string b => cmpStr (st.name a) (st.name b)
    | .symbol a, .symbol b => cmpStr (st.name a) (st.name b)
    | .number a, .number b => compare a b
    | _, _ => .eq)

section
variable (rec : Nat → Nat → Ordering) (st : Store)

/-- `store.rs` 1312–1327: `compare_slices`. The loops of this and the following functions compare the
elements from the left and then the lengths, which is `cmpList`. -/
def cmpSlices (a b : List Nat) : Ordering := cmpList rec a b

/-- `store.rs` 1167–1186: `compare_params`. -/
def cmpParams (a b : List Param) : Ordering :=
  cmpList (fun x y => (cmpBool x.optional y.optional).then
    ((cmpBool x.rest y.rest).then (rec x.ty y.ty))) a b

/-- `store.rs` 1188–1207: `compare_type_params`. `option_type_cmp` (1209–1216) is `cmpOption`. -/
def cmpTypeParams (a b : List TypeParamDecl) : Ordering :=
  cmpList (fun x y => (compare x.id y.id).then
    ((cmpOption rec x.constraint y.constraint).then (cmpOption rec x.default_ y.default_))) a b

/-- `store.rs` 1153–1165: `signature_cmp`. -/
def cmpSig (a b : Nat) : Ordering :=
  if a = b then .eq
  else
    (cmpParams rec (st.sig a).params (st.sig b).params).then
      ((rec (st.sig a).ret (st.sig b).ret).then
        ((cmpTypeParams rec (st.sig a).typeParams (st.sig b).typeParams).then
          ((cmpOption rec (st.sig a).thisParam (st.sig b).thisParam).then (compare a b))))

/-- `store.rs` 1295–1310: `compare_signature_slices`. -/
def cmpSigs (a b : List Nat) : Ordering := cmpList (cmpSig rec st) a b

/-- `store.rs` 1260–1273: `compare_props`. -/
def cmpProp (a b : Property) : Ordering :=
  (st.cmpKey a.key b.key).then
    ((rec a.data.ty b.data.ty).then
      ((cmpBool a.data.optional b.data.optional).then
        ((cmpBool a.data.readonly b.data.readonly).then
          ((cmpBool a.data.isMethod b.data.isMethod).then
            ((cmpOption (fun x y => compare (accessRank x) (accessRank y)) a.data.accessibility
                b.data.accessibility).then
              (cmpOption (fun x y : Nat => compare x y) a.data.declaredOn b.data.declaredOn))))))

/-- `store.rs` 637–642 and 1284–1288: the order of index signatures. -/
def cmpIndexer (a b : Indexer) : Ordering :=
  (rec a.keyType b.keyType).then
    ((rec a.valueType b.valueType).then (cmpBool a.readonly b.readonly))

/-- `store.rs` 1224–1255: `composite_cmp` on objects: the properties from the left; if they are equal
as far as both go, their number, then signatures and index signatures. -/
def cmpShape (a b : Shape) : Ordering :=
  (cmpList (cmpProp rec st) a.properties b.properties).then
    ((cmpSigs rec st a.callSigs b.callSigs).then
      ((cmpSigs rec st a.constructSigs b.constructSigs).then
        (cmpList (cmpIndexer rec) a.indexers b.indexers)))

/-- `store.rs` 1035–1053: the elements of tuples. -/
def cmpElem (a b : TupleElem) : Ordering :=
  (rec a.ty b.ty).then
    ((cmpBool a.optional b.optional).then
      ((cmpBool a.rest b.rest).then (cmpBool a.readonly b.readonly)))

/-- `store.rs` 1102–1112: mapped types. -/
def cmpMapped (a b : MappedType) : Ordering :=
  (compare a.param b.param).then
    ((rec a.source b.source).then
      ((rec a.value b.value).then
        ((compare (modifierRank a.readonly) (modifierRank b.readonly)).then
          ((compare (modifierRank a.optional) (modifierRank b.optional)).then
            ((cmpOption rec a.nameType b.nameType).then (cmpOption rec a.asType b.asType))))))

/-- `store.rs` 982–1148: the comparison of two kinds with the same discriminant. -/
def cmpKind : Kind → Kind → Ordering
  | .boolLit a, .boolLit b => cmpBool a b
  | .numLit a, .numLit b => compare a b
  | .strLit a, .strLit b => cmpStr (st.name a) (st.name b)
  | .bigLit a, .bigLit b => compare a b
  | .union a, .union b => cmpSlices rec a b
  | .inter a, .inter b => cmpSlices rec a b
  | .object a, .object b => cmpShape rec st (st.shapeOf a) (st.shapeOf b)
  | .callable a, .callable b => cmpSigs rec st a b
  | .ref d a, .ref e b => (compare d e).then (cmpSlices rec a b)
  | .infer p c, .infer q d => (compare p q).then (cmpOption rec c d)
  | .tuple a, .tuple b => cmpList (cmpElem rec) a b
  | .array a ra, .array b rb => (cmpBool ra rb).then (rec a b)
  | .typeParam a, .typeParam b => compare a b
  | .predicate p a x, .predicate q b y =>
    (cmpOption (cmpOption (fun m n : Nat => compare m n)) p q).then
      ((cmpOption rec a b).then (cmpBool x y))
  | .conditional c e t f d, .conditional c' e' t' f' d' =>
    (rec c c').then ((rec e e').then ((rec t t').then ((rec f f').then (cmpBool d d'))))
  | .mapped a, .mapped b => cmpMapped rec a b
  | .template h s, .template h' s' =>
    (cmpStr h h').then
      (cmpList (fun x y : TemplateChunk => (rec x.ty y.ty).then (cmpStr x.literal y.literal)) s s')
  | .intrinsic k t, .intrinsic l u => (compare (intrinsicRank k) (intrinsicRank l)).then (rec t u)
  | .indexed o i, .indexed p j => (rec o p).then (rec i j)
  | .keyOf a, .keyOf b => rec a b
  | _, _ => .eq

/-- `store.rs` 972–1151: `type_cmp`, its recursive calls passed in as `rec`. -/
def typeCmpWith (a b : Nat) : Ordering :=
  if a = b then .eq
  else
    (compare (st.kind a).discriminant (st.kind b).discriminant).then
      ((cmpKind rec st (st.kind a) (st.kind b)).then (compare a b))

end

/-- `type_cmp` with a bound on the depth of recursion. -/
def typeCmpN (st : Store) : Nat → Nat → Nat → Ordering
  | 0, a, b => compare a b
  | n + 1, a, b => typeCmpWith (st.typeCmpN n) st a b

/-- `store.rs` 972–1151: `type_cmp`. Types refer to types interned before them, so the recursion is no
deeper than there are types: the bound is never reached (`C48_order`). -/
def typeCmp (st : Store) (a b : Nat) : Ordering := st.typeCmpN st.types.length a b

/-- `store.rs` 1153–1165: `signature_cmp`. -/
def sigCmp (st : Store) (a b : Nat) : Ordering := cmpSig st.typeCmp st a b

/-! ## Interning -/

/-- `Vec::dedup`: drops an element equal to the one before it. -/
def dedup : List Nat → List Nat
  | [] => []
  | [a] => [a]
  | a :: b :: l => if a = b then dedup (b :: l) else a :: dedup (b :: l)

/-- `store.rs` 967–970: `sort_and_dedup`. -/
def sortDedup (st : Store) (ms : List Nat) : List Nat := dedup (sortBy st.typeCmp ms)

/-- `store.rs` 356–360: `insert_type_direct`. -/
def insertType (H : Hashes) (st : Store) (k : Kind) : Option (Store × Nat) :=
  match insertWithCollision H.type st.types k with
  | none => none
  | some (m, i) => some ({ st with types := m }, i)

/-- How `union` and `intersection` get the canonical form of a member. -/
abbrev Canon := Store → Nat → Option (Store × Nat)

/-- `store.rs` 771–784: the loop of `union` over its members. The answer is `none` inside if the
function returns `any`, otherwise the collected members and whether `unknown` was seen. -/
def unionScan (canon : Canon) : Store → List Nat → List Nat → Bool →
    Option (Store × Option (List Nat × Bool))
  | st, [], flat, u => some (st, some (flat, u))
  | st, m :: ms, flat, u =>
    match canon st m with
    | none => none
    | some (st, c) =>
      match st.kind? c with
      | none => none
      | some .any => some (st, none)
      | some .unknown => unionScan canon st ms flat true
      | some .never => unionScan canon st ms flat u
      | some (.union inner) => unionScan canon st ms (flat ++ inner) u
      | some _ => unionScan canon st ms (flat ++ [c]) u

/-- `store.rs` 789–803: whether some member has this kind. -/
def hasKind (st : Store) (k : Kind) (ms : List Nat) : Bool := ms.any (fun m => st.kind m == k)

/-- `store.rs` 805–813: which members `union` keeps. -/
def unionKeeps (st : Store) (flat : List Nat) (m : Nat) : Bool :=
  match st.kind m with
  | .boolLit _ => !st.hasKind .boolean flat
  | .numLit _ => !st.hasKind .number flat
  | .strLit _ => !st.hasKind .string flat
  | .template _ _ => !st.hasKind .string flat
  | .bigLit _ => !st.hasKind .bigint flat
  | .uniqueSymbol => !st.hasKind .symbol flat
  | _ => true

/-- Whether a type is a boolean literal. -/
def isBoolLit (st : Store) (m : Nat) : Bool :=
  match st.kind m with
  | .boolLit _ => true
  | _ => false

/-- `store.rs` 789–830: the second half of `union`. -/
def unionFinish (H : Hashes) (st : Store) (flat : List Nat) : Option (Store × Nat) :=
  match st.sortDedup (flat.filter (st.unionKeeps flat)) with
  | [] => some (st, st.prims.never)
  | [a] => some (st, a)
  | [a, b] =>
    if st.isBoolLit a && st.isBoolLit b then some (st, st.prims.boolean)
    else insertType H st (.union [a, b])
  | l => insertType H st (.union l)

/-- `store.rs` 770–830: `union`. -/
def unionWith (H : Hashes) (canon : Canon) (st : Store) (ms : List Nat) : Option (Store × Nat) :=
  match unionScan canon st ms [] false with
  | none => none
  | some (st, none) => some (st, st.prims.any)
  | some (st, some (flat, u)) =>
    if u then some (st, st.prims.unknown) else unionFinish H st flat

/-- `store.rs` 836–844: the loop of `intersection` over its members; `none` inside is an early return
of `never`, and the flag is `has_any`. -/
def interScan (canon : Canon) : Store → List Nat → List Nat → Bool →
    Option (Store × Option (List Nat × Bool))
  | st, [], flat, a => some (st, some (flat, a))
  | st, m :: ms, flat, a =>
    match canon st m with
    | none => none
    | some (st, c) =>
      match st.kind? c with
      | none => none
      | some .never => some (st, none)
      | some .any => interScan canon st ms flat true
      | some .unknown => interScan canon st ms flat a
      | some (.inter inner) => interScan canon st ms (flat ++ inner) a
      | some _ => interScan canon st ms (flat ++ [c]) a

/-- `store.rs` 850–866: which literals of a primitive type are there. -/
def hasLit (st : Store) (p : Kind → Bool) (ms : List Nat) : Bool := ms.any (fun m => p (st.kind m))

/-- `store.rs` 868–885: which members `intersection` keeps. The six passes of `retain` look only at
flags computed before, so they are one filter. -/
def interKeeps (st : Store) (flat : List Nat) (m : Nat) : Bool :=
  match st.kind m with
  | .boolean => !st.hasLit (fun k => match k with | .boolLit _ => true | _ => false) flat
  | .number => !st.hasLit (fun k => match k with | .numLit _ => true | _ => false) flat
  | .string =>
    !st.hasLit (fun k => match k with | .strLit _ => true | _ => false) flat &&
      !st.hasLit (fun k => match k with | .template _ _ => true | _ => false) flat
  | .bigint => !st.hasLit (fun k => match k with | .bigLit _ => true | _ => false) flat
  | .symbol => !st.hasLit (fun k => match k with | .uniqueSymbol => true | _ => false) flat
  | _ => true

/-- `store.rs` 897–908: the variables of the last loop of `intersection`. -/
structure Scan where
  families : Nat
  boolLit : Option Nat
  numLit : Option Nat
  strLit : Option Nat
  bigLit : Option Nat
deriving DecidableEq

/-- `store.rs` 916–920 and its copies: a literal of a family of which one was seen already; `none` if
it is another one. -/
def seenLit (prev : Option Nat) (m : Nat) : Option (Option Nat) :=
  match prev with
  | some p => if p ≠ m then none else some prev
  | none => some (some m)

/-- `store.rs` 908–962: the body of the last loop of `intersection`; `none` is the return of `never`.
`families` is a set of bits; `families & (families - 1)` is not zero if there is more than one. -/
def scanStep (st : Store) (s : Scan) (m : Nat) : Option Scan :=
  let r : Option Scan :=
    match st.kind m with
    | .string => some { s with families := s.families ||| 1 }
    | .strLit _ => (seenLit s.strLit m).map fun l => { s with families := s.families ||| 1, strLit := l }
    | .template _ _ => some { s with families := s.families ||| 1 }
    | .number => some { s with families := s.families ||| 2 }
    | .numLit _ => (seenLit s.numLit m).map fun l => { s with families := s.families ||| 2, numLit := l }
    | .boolean => some { s with families := s.families ||| 4 }
    | .boolLit _ =>
      (seenLit s.boolLit m).map fun l => { s with families := s.families ||| 4, boolLit := l }
    | .bigint => some { s with families := s.families ||| 8 }
    | .bigLit _ => (seenLit s.bigLit m).map fun l => { s with families := s.families ||| 8, bigLit := l }
    | .symbol => some { s with families := s.families ||| 16 }
    | .uniqueSymbol => some { s with families := s.families ||| 16 }
    | _ => some s
  match r with
  | none => none
  | some s => if s.families &&& (s.families - 1) ≠ 0 then none else some s

/-- `store.rs` 846–965: the second half of `intersection`. -/
def interFinish (H : Hashes) (st : Store) (flat : List Nat) : Option (Store × Nat) :=
  match flat.filter (st.interKeeps flat) with
  | [] => some (st, st.prims.unknown)
  | k :: ks =>
    match st.sortDedup (k :: ks) with
    | [a] => some (st, a)
    | l =>
      match l.foldlM st.scanStep ⟨0, none, none, none, none⟩ with
      | none => some (st, st.prims.never)
      | some _ => insertType H st (.inter l)

/-- `store.rs` 832–965: `intersection`. -/
def interWith (H : Hashes) (canon : Canon) (st : Store) (ms : List Nat) : Option (Store × Nat) :=
  match interScan canon st ms [] false with
  | none => none
  | some (st, none) => some (st, st.prims.never)
  | some (st, some (flat, a)) =>
    if a then some (st, st.prims.any) else interFinish H st flat

/-- `store.rs` 691–697: `canon`, with a bound on the depth of recursion. -/
def canonN (H : Hashes) : Nat → Canon
  | 0, _, _ => none
  | n + 1, st, t =>
    match st.kind? t with
    | none => none
    | some (.union ms) => unionWith H (canonN H n) st ms
    | some (.inter ms) => interWith H (canonN H n) st ms
    | some _ => some (st, t)

/-- `store.rs` 691–697: `canon`. -/
def canon (H : Hashes) (st : Store) (t : Nat) : Option (Store × Nat) :=
  canonN H (st.types.length + 1) st t

/-- `store.rs` 770–830: `union`. -/
def union (H : Hashes) (st : Store) (ms : List Nat) : Option (Store × Nat) :=
  unionWith H (canon H) st ms

/-- `store.rs` 832–965: `intersection`. -/
def intersection (H : Hashes) (st : Store) (ms : List Nat) : Option (Store × Nat) :=
  interWith H (canon H) st ms

/-- Apply `canon` to the types in a list, from the left. -/
def canonList (H : Hashes) : Store → List Nat → Option (Store × List Nat)
  | st, [] => some (st, [])
  | st, t :: ts =>
    match canon H st t with
    | none => none
    | some (st, c) =>
      match canonList H st ts with
      | none => none
      | some (st, cs) => some (st, c :: cs)

/-- The type identifiers in an `Option`, as a list. -/
def opt (o : Option Nat) : List Nat := o.toList

/-- `store.rs` 191–194: `stable_dedup_signatures`: keeps the first of each; `seen` is the set of those
seen before. -/
def dedupFrom (seen : List Nat) : List Nat → List Nat
  | [] => []
  | s :: ss => if seen.contains s then dedupFrom seen ss else s :: dedupFrom (s :: seen) ss

def stableDedup (ss : List Nat) : List Nat := dedupFrom [] ss

/-- The types inside a kind that `canonicalize_kind` (`store.rs` 699–768) replaces by their canonical
form, in the order in which it does. -/
def kindArgs : Kind → List Nat
  | .array t _ => [t]
  | .tuple es => es.map TupleElem.ty
  | .ref _ args => args
  | .conditional c e t f _ => [c, e, t, f]
  | .infer _ c => opt c
  | .mapped m => opt m.nameType ++ opt m.asType
  | .template _ spans => spans.map TemplateChunk.ty
  | .intrinsic _ t => [t]
  | .indexed o i => [o, i]
  | .keyOf t => [t]
  | _ => []

/-- Put types back where `kindArgs` took them from. -/
def setOpt (o : Option Nat) (ts : List Nat) : Option Nat × List Nat :=
  match o, ts with
  | some _, t :: ts => (some t, ts)
  | _, ts => (o, ts)

/-- `store.rs` 699–768: `canonicalize_kind`, given the canonical forms of the types inside. -/
def setKindArgs (st : Store) : Kind → List Nat → Kind
  | .array _ r, [t] => .array t r
  | .tuple es, ts => .tuple (List.zipWith (fun e t => { e with ty := t }) es ts)
  | .ref d _, ts => .ref d ts
  | .conditional _ _ _ _ d, [c, e, t, f] => .conditional c e t f d
  | .infer p c, ts => .infer p (setOpt c ts).1
  | .mapped m, ts =>
    .mapped { m with
      nameType := (setOpt m.nameType ts).1
      asType := (setOpt m.asType (setOpt m.nameType ts).2).1 }
  | .template h spans, ts => .template h (List.zipWith (fun s t => { s with ty := t }) spans ts)
  | .intrinsic k _, [t] => .intrinsic k t
  | .indexed _ _, [o, i] => .indexed o i
  | .keyOf _, [t] => .keyOf t
  | .callable o, _ => .callable (sortBy st.sigCmp (stableDedup o))
  | k, _ => k

/-- `store.rs` 682–689: `intern_type`. -/
def internType (H : Hashes) (st : Store) (k : Kind) : Option (Store × Nat) :=
  match k with
  | .union ms => union H st ms
  | .inter ms => intersection H st ms
  | k =>
    match canonList H st (kindArgs k) with
    | none => none
    | some (st, ts) => insertType H st (st.setKindArgs k ts)

/-- The types inside a signature, in the order in which `intern_signature` visits them. -/
def sigArgs (s : Signature) : List Nat :=
  s.params.map Param.ty ++ s.ret :: opt s.thisParam ++
    s.typeParams.flatMap (fun p => opt p.constraint ++ opt p.default_)

/-- `store.rs` 529–537: the type parameters, from the left. -/
def setTypeParams : List TypeParamDecl → List Nat → List TypeParamDecl
  | [], _ => []
  | p :: ps, ts =>
    let c := setOpt p.constraint ts
    let d := setOpt p.default_ c.2
    { p with constraint := c.1, default_ := d.1 } :: setTypeParams ps d.2

/-- `store.rs` 518–539: `intern_signature`, given the canonical forms of the types inside. The names of
parameters are dropped. -/
def setSigArgs (s : Signature) (ts : List Nat) : Signature :=
  let n := s.params.length
  let rest := ts.drop n
  let this := setOpt s.thisParam rest.tail
  { params := List.zipWith (fun p t => { p with name := none, ty := t }) s.params (ts.take n)
    ret := rest.headD s.ret
    thisParam := this.1
    typeParams := setTypeParams s.typeParams this.2 }

/-- `store.rs` 518–539: `intern_signature`. -/
def internSignature (H : Hashes) (st : Store) (s : Signature) : Option (Store × Nat) :=
  match canonList H st (sigArgs s) with
  | none => none
  | some (st, ts) =>
    match insertWithCollision H.sig st.sigs (setSigArgs s ts) with
    | none => none
    | some (m, i) => some ({ st with sigs := m }, i)

/-- `store.rs` 597–609: merging where two properties were declared; the flag is
`declared_on_conflict`. -/
def mergeDeclared : Option Nat → Option Nat → Bool → Option Nat × Bool
  | some a, some b, c => if a = b then (some a, c) else (none, true)
  | none, some b, c => if c then (none, c) else (some b, c)
  | a, none, c => (a, c)

/-- `store.rs` 610–615: merging origins. -/
def mergeOrigin : Option Nat → Option Nat → Option Nat
  | some a, some b => if a = b then some a else none
  | none, some b => some b
  | a, none => a

/-- `store.rs` 616–621: merging accessibility: the more restrictive one. -/
def mergeAccess : Option Accessibility → Option Accessibility → Option Accessibility
  | some a, some b => if accessRank a ≤ accessRank b then some b else some a
  | some a, none => some a
  | none, some a => some a
  | none, none => none

/-- `store.rs` 588–628: the loop that merges properties with the same key. `acc` is the list of merged
properties, last one first. -/
def mergeProps (H : Hashes) : Store → List Property → List Property → Bool →
    Option (Store × List Property)
  | st, [], acc, _ => some (st, acc.reverse)
  | st, p :: ps, [], _ => mergeProps H st ps [p] false
  | st, p :: ps, last :: acc, conflict =>
    if last.key = p.key then
      match intersection H st [last.data.ty, p.data.ty] with
      | none => none
      | some (st, ty) =>
        let d := mergeDeclared last.data.declaredOn p.data.declaredOn conflict
        let last' : Property := ⟨last.key,
          { ty := ty
            optional := last.data.optional && p.data.optional
            readonly := last.data.readonly || p.data.readonly
            isMethod := last.data.isMethod || p.data.isMethod
            declaredOn := d.1
            origin := mergeOrigin last.data.origin p.data.origin
            accessibility := mergeAccess last.data.accessibility p.data.accessibility }⟩
        mergeProps H st ps (last' :: acc) d.2
    else mergeProps H st ps (p :: last :: acc) false

/-- `store.rs` 649–660: the loop that merges index signatures with the same key type. -/
def mergeIndexers (H : Hashes) : Store → List Indexer → List Indexer → Option (Store × List Indexer)
  | st, [], acc => some (st, acc.reverse)
  | st, x :: xs, [] => mergeIndexers H st xs [x]
  | st, x :: xs, last :: acc =>
    if last.keyType = x.keyType then
      match intersection H st [last.valueType, x.valueType] with
      | none => none
      | some (st, ty) =>
        mergeIndexers H st xs (⟨last.keyType, ty, last.readonly || x.readonly⟩ :: acc)
    else mergeIndexers H st xs (x :: last :: acc)

/-- The types inside the properties and index signatures of a shape, in the order in which
`intern_shape` visits them. -/
def shapeArgs (s : Shape) : List Nat :=
  s.properties.map (fun p => p.data.ty) ++ s.indexers.flatMap (fun x => [x.keyType, x.valueType])

/-- `store.rs` 573–576: the index signatures, from the left. -/
def setIndexers : List Indexer → List Nat → List Indexer
  | x :: xs, k :: v :: ts => ⟨k, v, x.readonly⟩ :: setIndexers xs ts
  | _, _ => []

/-- `store.rs` 569–663: `intern_shape`. -/
def internShape (H : Hashes) (st : Store) (s : Shape) : Option (Store × Nat) :=
  match canonList H st (shapeArgs s) with
  | none => none
  | some (st, ts) =>
    let n := s.properties.length
    let props := List.zipWith (fun p t => (⟨p.key, { p.data with ty := t }⟩ : Property))
      s.properties (ts.take n)
    let indexers := setIndexers s.indexers (ts.drop n)
    match mergeProps H st (sortBy (fun a b => st.cmpKey a.key b.key) props) [] false with
    | none => none
    | some (st, props) =>
      let call := sortBy st.sigCmp (stableDedup s.callSigs)
      let construct := sortBy st.sigCmp (stableDedup s.constructSigs)
      match mergeIndexers H st (sortBy (cmpIndexer st.typeCmp) indexers) [] with
      | none => none
      | some (st, indexers) =>
        match insertWithCollision H.shape st.shapes ⟨props, call, construct, indexers⟩ with
        | none => none
        | some (m, i) => some ({ st with shapes := m }, i)

/-- `store.rs` 665–667: `intern_object`. -/
def internObject (H : Hashes) (st : Store) (shape : Nat) : Option (Store × Nat) :=
  match insertWithCollision H.object st.objects shape with
  | none => none
  | some (m, i) => some ({ st with objects := m }, i)

/-- `store.rs` 506–508: `intern_name`. -/
def internName (H : Hashes) (st : Store) (s : List Nat) : Option (Store × Nat) :=
  match st.names.intern H.name s with
  | none => none
  | some (n, i) => some ({ st with names := n }, i)

/-- `store.rs` 238–251: interns the primitive kinds one after the other. -/
def insertAll (H : Hashes) : Store → List Kind → Option (Store × List Nat)
  | st, [] => some (st, [])
  | st, k :: ks =>
    match insertType H st k with
    | none => none
    | some (st, i) =>
      match insertAll H st ks with
      | none => none
      | some (st, is) => some (st, i :: is)

/-- `store.rs` 209–253: `with_options_and_fingerprint`. -/
def new (H : Hashes) : Option Store :=
  match insertAll H ⟨[], [], [], [], ⟨[], []⟩, ⟨0, 0, 0, 0, 0, 0, 0⟩⟩
      [.any, .unknown, .never, .void, .null, .undefined, .boolean, .number, .string, .bigint, .symbol,
        .uniqueSymbol] with
  | some (st, [any, unknown, never, _, _, _, boolean, number, string, bigint, _, _]) =>
    some { st with prims := ⟨any, unknown, never, boolean, number, string, bigint⟩ }
  | _ => none

end Store
end Verif.Types
