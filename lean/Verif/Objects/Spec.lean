import Verif.Objects.Model

/-!
# Specifications for objects and arrays

Written from ECMA-262, independently of the functions in `Model.lean` (only the data types are shared).
-/

namespace Verif.Objects

/-! ## Array indices (ECMA-262 §6.1.7) -/

/-- The canonical decimal numeral of `n`, as code units (`'0'` = 48). -/
def numeral (n : Nat) : Units :=
  if n < 10 then [48 + n] else numeral (n / 10) ++ [48 + n % 10]
termination_by n

/-- An array index is a canonical numeral of a number up to `2^32 - 2`. -/
def IsArrayIndex (k : Key) (i : Nat) : Prop := k = .str (numeral i) ∧ i ≤ 2 ^ 32 - 2

/-! ## ValidateAndApplyPropertyDescriptor (ECMA-262 §10.1.6.3) -/

/-- A descriptor with a value or writable field. -/
def HasDataField (p : Patch) : Prop := p.value ≠ none ∨ p.writable ≠ none

/-- A descriptor with a get or set field. -/
def HasAccessorField (p : Patch) : Prop := p.get ≠ none ∨ p.set ≠ none

/-- A descriptor without any field. -/
def HasNoField (p : Patch) : Prop := p = {}

/-- `Desc[name]` if present, else `old` if there is one, else the default. -/
def pick {α : Type} (new old : Option α) (dflt : α) : α :=
  match new, old with
  | some a, _ => a
  | none, some b => b
  | none, none => dflt

/-- The [[Value]] and [[Writable]] attributes of a data property. -/
def dataValue : Option Desc → Option Value
  | some ⟨_, _, .data v _⟩ => some v
  | _ => none
def dataWritable : Option Desc → Option Bool
  | some ⟨_, _, .data _ w⟩ => some w
  | _ => none
/-- The [[Get]] and [[Set]] attributes of an accessor property. -/
def accGet : Option Desc → Option Value
  | some ⟨_, _, .accessor g _⟩ => some g
  | _ => none
def accSet : Option Desc → Option Value
  | some ⟨_, _, .accessor _ s⟩ => some s
  | _ => none

/-- Steps 4–5: the definition is accepted. -/
def EsAccepts (extensible : Bool) (p : Patch) : Option Desc → Prop
  | none => extensible = true
  | some c =>
    HasNoField p ∨ c.configurable = true ∨
      (p.configurable ≠ some true ∧
       (∀ e, p.enumerable = some e → e = c.enumerable) ∧
       (match c.kind with
        | .data v w =>
          ¬ HasAccessorField p ∧
          (w = false → p.writable ≠ some true ∧ ∀ v', p.value = some v' → v' = v)
        | .accessor g s =>
          ¬ HasDataField p ∧
          (∀ v', p.get = some v' → v' = g) ∧ (∀ v', p.set = some v' → v' = s)))

/-- Step 6: the property after an accepted definition. Fields of the descriptor win; missing ones keep the old
attribute when the kind of property stays the same and get the default otherwise. -/
def EsResult (p : Patch) (cur : Option Desc) (new : Desc) : Prop :=
  new.enumerable = pick p.enumerable (cur.map Desc.enumerable) false ∧
  new.configurable = pick p.configurable (cur.map Desc.configurable) false ∧
  match new.kind with
  | .data v w =>
    ¬ HasAccessorField p ∧ (HasDataField p ∨ accGet cur = none) ∧
    v = pick p.value (dataValue cur) .undefined ∧
    w = pick p.writable (dataWritable cur) false
  | .accessor g s =>
    ¬ HasDataField p ∧ (HasAccessorField p ∨ accGet cur ≠ none) ∧
    g = pick p.get (accGet cur) .undefined ∧
    s = pick p.set (accSet cur) .undefined

/-! ## Observations -/

/-- The own property `k` of object `id`, as `object_get_own_property` shows it. -/
def Own (s : Store) (id : Nat) (k : Key) (d : Desc) : Prop :=
  ∃ o, s.objs[id]? = some o ∧ o.getOwn k = some d

/-- `Array.isArray`-like observation: object `id` is an array of the given length. -/
def IsArray (s : Store) (id n : Nat) : Prop :=
  ∃ o, s.objs[id]? = some o ∧ o.arrayLen = some n

/-! ## Frozen properties -/

/-- What must not change about a non-configurable property `d` that later reads `d'`. -/
def FrozenAs (d d' : Desc) : Prop :=
  d'.configurable = false ∧ d'.enumerable = d.enumerable ∧
  match d.kind with
  | .accessor g s => d'.kind = .accessor g s
  | .data v true => ∃ v' w', d'.kind = .data v' w'
  | .data v false => d'.kind = .data v false

/-- Every non-configurable property of `s` is still there, unchanged up to `FrozenAs`, in `s'`. -/
def KeepsFrozen (s s' : Store) : Prop :=
  ∀ id k d, Own s id k d → d.configurable = false → ∃ d', Own s' id k d' ∧ FrozenAs d d'

/-- Objects that are not extensible stay so and gain no property. -/
def KeepsSealed (s s' : Store) : Prop :=
  ∀ (id : Nat) (o : Obj), s.objs[id]? = some o → o.extensible = false →
    ∃ o' : Obj, s'.objs[id]? = some o' ∧ o'.extensible = false ∧
      ∀ k, o.getOwn k = none → o'.getOwn k = none

/-! ## Arrays -/

/-- The length of an array exceeds each of its indices and is what its `length` property shows. -/
def LengthOk (s : Store) : Prop :=
  ∀ id n, IsArray s id n →
    n < 2 ^ 32 ∧
    (∃ d w, Own s id (.str lengthUnits) d ∧ d.kind = .data (numVal n) w ∧ d.configurable = false) ∧
    ∀ k i d, IsArrayIndex k i → Own s id k d → i < n

/-- A history in which no length write was cut short by running out of memory: no `define`, `create` or `set`
that addresses an array's `length` returned an out-of-memory error. -/
def writesLength : Op → Bool
  | .define _ (.str s) _ => s == lengthUnits
  | .create _ (.str s) _ => s == lengthUnits
  | .set _ (.str s) _ _ => s == lengthUnits
  | _ => false

/-- See `writesLength`. -/
def NoCutShort : List Op → Store → Prop
  | [], _ => True
  | op :: ops, s => (writesLength op = true → (step op s).1 ≠ .err .outOfMemory) ∧ NoCutShort ops (step op s).2

/-- The outcome of writing a smaller length `l` to an array whose properties `old` lists and whose `length` is
writable, as the property `length` and the elements are seen afterwards (`new`). -/
def Shrunk (l : Nat) (old new : Key → Option Desc) : Bool → Prop
  | true =>
    -- nothing stood in the way
    (∀ k i d, IsArrayIndex k i → l ≤ i → old k = some d → d.configurable = true) ∧
    new (.str lengthUnits) = some ⟨false, false, .data (numVal l) true⟩ ∧
    (∀ k i, IsArrayIndex k i → l ≤ i → new k = none) ∧
    (∀ k, k ≠ .str lengthUnits → (∀ i, IsArrayIndex k i → i < l) → new k = old k)
  | false =>
    -- the highest non-configurable element stops the deletion
    ∃ m km c, IsArrayIndex km m ∧ l ≤ m ∧ old km = some c ∧ c.configurable = false ∧
      (∀ k i d, IsArrayIndex k i → m < i → old k = some d → d.configurable = true) ∧
      new (.str lengthUnits) = some ⟨false, false, .data (numVal (m + 1)) true⟩ ∧
      (∀ k i, IsArrayIndex k i → m < i → new k = none) ∧
      (∀ k, k ≠ .str lengthUnits → (∀ i, IsArrayIndex k i → i ≤ m) → new k = old k)

/-! ## Key order -/

/-- Key classes in listing order: array indices, other strings, symbols. -/
def InClass : Nat → Key → Prop
  | 0, k => ∃ i, IsArrayIndex k i
  | 1, k => (∃ s, k = .str s) ∧ ¬ ∃ i, IsArrayIndex k i
  | _, k => ∃ id, k = .sym id

/-- `a` comes before `b`. -/
def Before (a b : Key) (l : List Key) : Prop := [a, b].Sublist l

/-- The listing order of ECMA-262 §10.1.11.1 as far as it does not depend on history. -/
def Ordered (l : List Key) : Prop :=
  ∀ a b, Before a b l →
    (∀ c c', c ≤ 2 → c' ≤ 2 → InClass c a → InClass c' b → c ≤ c') ∧ (∀ i j, IsArrayIndex a i → IsArrayIndex b j → i < j)

/-- Creation order, step by step: of two listed keys of the same (string or symbol) class the first existed already,
and if both did they were in the same order. So a key created by the operation comes last in its class. -/
def CreationOrder (old new : List Key) : Prop :=
  ∀ a b, (InClass 1 a ∧ InClass 1 b ∨ InClass 2 a ∧ InClass 2 b) → Before a b new →
    a ∈ old ∧ (b ∈ old → Before a b old)

/-- No initial property list of the history names a key twice. -/
def DistinctInit (ops : List Op) : Prop :=
  ∀ p es, Op.newObject p es ∈ ops → (es.map Entry.key).Nodup

/-- The object after an accepted or rejected definition of `k` by `p`. -/
structure DefinedAs (p : Patch) (k : Key) (o o' : Obj) (accepted : Bool) : Prop where
  wellFormed : ¬ (HasDataField p ∧ HasAccessorField p)
  decision : accepted = true ↔ EsAccepts o.extensible p (o.getOwn k)
  rejected : accepted = false → o' = o
  property : accepted = true → ∃ d, o'.getOwn k = some d ∧ EsResult p (o.getOwn k) d
  others : ∀ k', k' ≠ k → o'.getOwn k' = o.getOwn k'
  rest : o'.proto = o.proto ∧ o'.extensible = o.extensible ∧ o'.arrayLen = o.arrayLen

end Verif.Objects
