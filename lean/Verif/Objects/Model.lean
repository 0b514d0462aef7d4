/-!
# Objects, properties and arrays of vm-js

Models `vm-js/src/property.rs`, `vm-js/src/object_ops.rs` and the property parts of `vm-js/src/heap.rs`.

Simplifications, valid for the whole file:
* Strings and string property keys are their UTF-16 code units (`property_key_eq` and `same_value` compare
  strings by content, property.rs:143–158, value.rs:148–156); symbols and objects are identities.
* All handles are live: liveness is the subject of `Verif.Heap`.
* Every point where the code may fail for lack of memory (`push_roots`, growing a property table) consumes one
  answer from an arbitrary list `alloc` of outcomes; an exhausted list means success.
-/

namespace Verif.Objects

/-- UTF-16 code units of a string. -/
abbrev Units := List Nat

/-- An ECMAScript Number (`f64`, value.rs:84). `fin 0` is `+0`. The finite doubles are among the rationals, so
statements over all of `Num` cover all doubles. -/
inductive Num where
  | nan
  | inf (neg : Bool)
  | negZero
  | fin (q : Rat)
  deriving DecidableEq, Repr

/-- vm-js/src/value.rs:79–92 `Value`; BigInts are integers, strings their contents. -/
inductive Value where
  | undefined
  | null
  | bool (b : Bool)
  | number (n : Num)
  | bigint (i : Int)
  | string (s : Units)
  | symbol (id : Nat)
  | object (id : Nat)
  deriving DecidableEq, Repr

/-- vm-js/src/property.rs:7–11 `PropertyKey` with the equality of `property_key_eq` (143–158). -/
inductive Key where
  | str (s : Units)
  | sym (id : Nat)
  deriving DecidableEq, Repr

/-- vm-js/src/property.rs:61–64 `PropertyKind`. -/
inductive Kind where
  | data (value : Value) (writable : Bool)
  | accessor (get set : Value)
  deriving DecidableEq, Repr

/-- vm-js/src/property.rs:34–38 `PropertyDescriptor`. -/
structure Desc where
  enumerable : Bool
  configurable : Bool
  kind : Kind
  deriving DecidableEq, Repr

/-- vm-js/src/property.rs:41–43 -/
def Desc.isData (d : Desc) : Bool := match d.kind with | .data .. => true | _ => false

/-- vm-js/src/property.rs:45–47 -/
def Desc.isAccessor (d : Desc) : Bool := match d.kind with | .accessor .. => true | _ => false

/-- vm-js/src/property.rs:80–87 `PropertyDescriptorPatch`. -/
structure Patch where
  enumerable : Option Bool := none
  configurable : Option Bool := none
  value : Option Value := none
  writable : Option Bool := none
  get : Option Value := none
  set : Option Value := none
  deriving DecidableEq, Repr

/-- vm-js/src/property.rs:90–97 -/
def Patch.isEmpty (p : Patch) : Bool :=
  p.enumerable.isNone && p.configurable.isNone && p.value.isNone && p.writable.isNone && p.get.isNone && p.set.isNone

/-- vm-js/src/property.rs:99–101 -/
def Patch.isData (p : Patch) : Bool := p.value.isSome || p.writable.isSome

/-- vm-js/src/property.rs:103–105 -/
def Patch.isAccessor (p : Patch) : Bool := p.get.isSome || p.set.isSome

/-- vm-js/src/property.rs:107–109 -/
def Patch.isGeneric (p : Patch) : Bool := !p.isData && !p.isAccessor

/-- The errors the modelled functions return (vm-js/src/error.rs `VmError`). -/
inductive Err where
  | invalidHandle
  | invalidPatch
  | outOfMemory
  | invariant
  | typeError
  | prototypeChainTooDeep
  | prototypeCycle
  deriving DecidableEq, Repr

/-- vm-js/src/property.rs:113–120 `PropertyDescriptorPatch::validate` (true = Ok). -/
def Patch.valid (p : Patch) : Bool := !(p.isData && p.isAccessor)

/-- heap.rs:3936–3939 `PropertyEntry`. -/
structure Entry where
  key : Key
  desc : Desc
  deriving DecidableEq, Repr

/-- heap.rs:3715–3720 `ObjectBase`; `arrayLen` is the `ObjectKind` (`some n` = `Array(length n)`). -/
structure Obj where
  proto : Option Nat
  extensible : Bool
  props : List Entry
  arrayLen : Option Nat
  deriving DecidableEq, Repr

/-- The objects, indexed by identity, and the allocator's future answers. -/
structure Store where
  objs : List Obj
  alloc : List Bool
  deriving Repr

/-! ## Array indices -/

/-- heap.rs:1487–1497, the digit loop of `string_to_array_index` (property.rs:185–196 is the same loop). -/
def indexLoop : Nat → Units → Option Nat
  | n, [] => some n
  | n, u :: us =>
    if 48 ≤ u ∧ u ≤ 57 then
      if n * 10 < 2 ^ 64 then
        if n * 10 + (u - 48) < 2 ^ 64 then
          if n * 10 + (u - 48) > 2 ^ 32 - 1 then none else indexLoop (n * 10 + (u - 48)) us
        else none
      else none
    else none

/-- heap.rs:1478–1503 `string_to_array_index`; property.rs:166–204 `array_index` is the same function on keys. -/
def stringToArrayIndex (units : Units) : Option Nat :=
  match units with
  | [] => none
  | u :: us =>
    if us ≠ [] ∧ u = 48 then none
    else match indexLoop 0 (u :: us) with
      | none => none
      | some n => if n = 2 ^ 32 - 1 then none else some n

/-- property.rs:166–204 `array_index` -/
def Key.arrayIndex : Key → Option Nat
  | .str s => stringToArrayIndex s
  | .sym _ => none

/-- The code units of `length` (heap.rs:1044). -/
def lengthUnits : Units := [108, 101, 110, 103, 116, 104]

/-- heap.rs:1043–1052 `property_key_is_length` -/
def Key.isLength : Key → Bool
  | .str s => s == lengthUnits
  | .sym _ => false

/-- heap.rs:4008–4022 `array_length_from_f64` (object_ops.rs:661–677 `array_length_from_value` is the same on
`Value::Number`). -/
def arrayLengthFromNum : Num → Option Nat
  | .nan => none
  | .inf _ => none
  | .negZero => some 0
  | .fin q => if q < 0 then none else if q.den ≠ 1 then none else if q > (2 ^ 32 - 1 : Nat) then none else some q.num.toNat

/-- object_ops.rs:661–677 `array_length_from_value` -/
def arrayLengthFromValue : Value → Option Nat
  | .number n => arrayLengthFromNum n
  | _ => none

/-- `Value::Number(n as f64)` for a `u32`. -/
def numVal (n : Nat) : Value := .number (.fin (n : Rat))

/-! ## Reading and writing one object -/

/-- heap.rs:897–909 `object_get_own_property`: the first entry with the key. -/
def lookup (k : Key) : List Entry → Option Desc
  | [] => none
  | e :: es => if e.key = k then some e.desc else lookup k es

/-- heap.rs:897–909 -/
def Obj.getOwn (o : Obj) (k : Key) : Option Desc := lookup k o.props

/-- `properties.iter().position(..)` (heap.rs:2180–2184) -/
def position (k : Key) : List Entry → Option Nat
  | [] => none
  | e :: es => if e.key = k then some 0 else (position k es).map (· + 1)

/-- `properties[idx].desc = desc` (heap.rs:2261) -/
def setDescAt : List Entry → Nat → Desc → List Entry
  | [], _, _ => []
  | e :: es, 0, d => { e with desc := d } :: es
  | e :: es, n + 1, d => e :: setDescAt es n d

/-- `if let PropertyKind::Data { value, .. } = &mut entry.desc.kind { *value = .. }` (heap.rs:3784) -/
def Desc.withValue (d : Desc) (v : Value) : Desc :=
  match d.kind with
  | .data _ w => { d with kind := .data v w }
  | .accessor .. => d

/-- heap.rs:3775–3791 `set_array_length`: the internal slot and the value of the entry at index 0. -/
def Obj.setArrayLength (o : Obj) (n : Nat) : Obj :=
  match o.arrayLen with
  | none => o
  | some _ =>
    { o with
      arrayLen := some n
      props := match o.props with
        | [] => []
        | e :: es => { e with desc := e.desc.withValue (numVal n) } :: es }

/-- heap.rs:2237–2256, the length check of `define_property`: `none` = not a length write,
`some (.ok n)` = the new length. -/
def Obj.newArrayLength (o : Obj) (k : Key) (d : Desc) : Except Err (Option Nat) :=
  if k.isLength && o.arrayLen.isSome then
    if position k o.props = some 0 then
      match d.kind with
      | .data (.number n) _ =>
        match arrayLengthFromNum n with
        | some l => .ok (some l)
        | none => .error .invariant
      | _ => .error .invariant
    else .error .invariant
  else .ok none

/-- heap.rs:2325–2341, the trailing length updates of `define_property`. `index.wrapping_add(1)` cannot wrap
because an array index is at most `2^32 - 2`. -/
def Obj.finishDefine (o : Obj) (k : Key) (newLen : Option Nat) : Obj :=
  let o := match newLen with
    | some n => o.setArrayLength n
    | none => o
  match k.arrayIndex, o.arrayLen with
  | some i, some cur => if (i + 1) % 2 ^ 32 > cur then o.setArrayLength ((i + 1) % 2 ^ 32) else o
  | _, _ => o

/-- heap.rs:911–1041 `object_delete_own_property`: drop the entry at the position. -/
def removeAt (k : Key) : List Entry → List Entry
  | [] => []
  | e :: es => if e.key = k then es else e :: removeAt k es

/-! ## State and errors -/

/-- A fallible operation on the store. State changes made before an error persist. -/
def M (α : Type) : Type := Store → Except Err α × Store

def M.pure {α : Type} (a : α) : M α := fun s => (.ok a, s)

def M.bind {α β : Type} (m : M α) (k : α → M β) : M β := fun s =>
  match m s with
  | (.ok a, s') => k a s'
  | (.error e, s') => (.error e, s')

instance : Monad M where
  pure := M.pure
  bind := M.bind

/-- `return Err(e)` -/
def fail {α : Type} (e : Err) : M α := fun s => (.error e, s)

/-- One fallible allocation (`ensure_can_allocate`, `try_reserve`, `push_roots`: heap.rs:2672–2760). -/
def allocate : M Unit := fun s =>
  match s.alloc with
  | [] => (.ok (), s)
  | true :: rest => (.ok (), { s with alloc := rest })
  | false :: rest => (.error .outOfMemory, { s with alloc := rest })

/-- `get_object_base` (heap.rs:846–858 and callers) -/
def getObj (id : Nat) : M Obj := fun s =>
  match s.objs[id]? with
  | some o => (.ok o, s)
  | none => (.error .invalidHandle, s)

/-- write through `get_object_base_mut` -/
def putObj (id : Nat) (o : Obj) : M Unit := fun s => (.ok (), { s with objs := s.objs.set id o })

/-- heap.rs:2258–2323, replacing an entry in place or appending a new one (with its allocation). -/
def writeEntry (id : Nat) (o : Obj) (k : Key) (d : Desc) : M Obj :=
  match position k o.props with
  | some i => pure { o with props := setDescAt o.props i d }
  | none => do
    allocate
    pure { o with props := o.props ++ [⟨k, d⟩] }

/-- heap.rs:2140–2344 `Heap::define_property` with the rooting of `Scope::define_property` (3109–3140). -/
def defineProperty (id : Nat) (k : Key) (d : Desc) : M Unit := do
  allocate
  let o ← getObj id
  match o.newArrayLength k d with
  | .error e => fail e
  | .ok newLen => do
    let o ← writeEntry id o k d
    putObj id (o.finishDefine k newLen)

/-! ## ValidateAndApplyPropertyDescriptor -/

/-- object_ops.rs:697–722, the property created when none exists. -/
def createDesc (p : Patch) : Desc :=
  { enumerable := p.enumerable.getD false
    configurable := p.configurable.getD false
    kind :=
      if p.isAccessor then .accessor (p.get.getD .undefined) (p.set.getD .undefined)
      else .data (p.value.getD .undefined) (p.writable.getD false) }

/-- object_ops.rs:791–845 `apply_descriptor_patch` -/
def applyPatch (c : Desc) (p : Patch) : Desc :=
  let enumerable := p.enumerable.getD c.enumerable
  let configurable := p.configurable.getD c.configurable
  if p.isGeneric then ⟨enumerable, configurable, c.kind⟩
  else match c.kind, p.isAccessor with
    | .data value writable, false => ⟨enumerable, configurable, .data (p.value.getD value) (p.writable.getD writable)⟩
    | .accessor get set, true => ⟨enumerable, configurable, .accessor (p.get.getD get) (p.set.getD set)⟩
    | .data .., true => ⟨enumerable, configurable, .accessor (p.get.getD .undefined) (p.set.getD .undefined)⟩
    | .accessor .., false => ⟨enumerable, configurable, .data (p.value.getD .undefined) (p.writable.getD false)⟩

/-- vm-js/src/value.rs:132–161 `same_value`: on this representation (one NaN, `-0` apart from `+0`, strings by
content) it is equality. -/
def sameValue (a b : Value) : Bool :=
  match a, b with
  | .undefined, .undefined => true
  | .null, .null => true
  | .bool a, .bool b => a == b
  | .number a, .number b => a == b
  | .bigint a, .bigint b => a == b
  | .string a, .string b => a == b
  | .symbol a, .symbol b => a == b
  | .object a, .object b => a == b
  | _, _ => false

/-- object_ops.rs:734–744, the checks on `configurable` and `enumerable` (true = rejected). -/
def rejectsFlags (c : Desc) (p : Patch) : Bool :=
  !c.configurable &&
    (p.configurable == some true ||
      (match p.enumerable with | some e => e != c.enumerable | none => false))

/-- object_ops.rs:753–757, kind switches. -/
def rejectsSwitch (c : Desc) (p : Patch) : Bool :=
  !c.configurable && !p.isGeneric && ((c.isData && p.isAccessor) || (c.isAccessor && p.isData))

/-- object_ops.rs:759–788, value checks for unchanged kinds. -/
def rejectsValues (c : Desc) (p : Patch) : Bool :=
  !p.isGeneric &&
    (match c.kind, c.configurable with
     | .data value writable, false =>
       p.isData && !writable &&
         (p.writable == some true ||
           (match p.value with | some v => !sameValue v value | none => false))
     | .accessor get set, false =>
       p.isAccessor &&
         ((match p.get with | some v => !sameValue v get | none => false) ||
          (match p.set with | some v => !sameValue v set | none => false))
     | _, true => false)

/-- object_ops.rs:679–795 `validate_and_apply_property_descriptor`, decision part:
`none` = rejected (`Ok(false)`), `some none` = accepted without a write, `some (some d)` = write `d`. -/
def decideDefine (extensible : Bool) (p : Patch) (current : Option Desc) : Option (Option Desc) :=
  match current with
  | none => if !extensible then none else some (some (createDesc p))
  | some c =>
    if p.isEmpty then some none
    else if rejectsFlags c p then none
    else if rejectsSwitch c p then none
    else if rejectsValues c p then none
    else some (some (applyPatch c p))

/-- object_ops.rs:679–795 with the write. -/
def validateAndApply (id : Nat) (k : Key) (extensible : Bool) (p : Patch) (current : Option Desc) : M Bool :=
  if !p.valid then fail .invalidPatch
  else match decideDefine extensible p current with
    | none => pure false
    | some none => pure true
    | some (some d) => do
      defineProperty id k d
      pure true

/-- object_ops.rs:34–71 `ordinary_define_own_property` -/
def ordinaryDefine (id : Nat) (k : Key) (p : Patch) : M Bool :=
  if !p.valid then fail .invalidPatch
  else do
    allocate
    let o ← getObj id
    validateAndApply id k o.extensible p (o.getOwn k)

/-! ## Deleting and listing -/

/-- heap.rs:1836–1847 `Heap::ordinary_delete` with the rooting of object_ops.rs:411–423. -/
def ordinaryDelete (id : Nat) (k : Key) : M Bool := do
  allocate
  let o ← getObj id
  match o.getOwn k with
  | none => pure true
  | some c =>
    if !c.configurable then pure false
    else do
      allocate
      putObj id { o with props := removeAt k o.props }
      pure true

/-- `if let Some(idx) = .. { index_keys.push((idx, key)) }` (heap.rs:1864–1868) -/
def indexKeys (props : List Entry) : List (Nat × Key) :=
  props.filterMap fun e => e.key.arrayIndex.map fun i => (i, e.key)

/-- heap.rs:1884–1891 -/
def plainStringKeys (props : List Entry) : List Key :=
  props.filterMap fun e => match e.key with
    | .str s => if (stringToArrayIndex s).isNone then some e.key else none
    | .sym _ => none

/-- heap.rs:1893–1897 -/
def symbolKeys (props : List Entry) : List Key :=
  props.filterMap fun e => match e.key with
    | .str _ => none
    | .sym _ => some e.key

/-- stable insertion, for `sortByIndex` -/
def insertByIndex (x : Nat × Key) : List (Nat × Key) → List (Nat × Key)
  | [] => [x]
  | y :: ys => if x.1 ≤ y.1 then x :: y :: ys else y :: insertByIndex x ys

/-- `index_keys.sort_by_key(|(idx, _)| *idx)` (heap.rs:1461, 1869), a stable sort; the algorithm (insertion sort
here) does not matter for the result. -/
def sortByIndex : List (Nat × Key) → List (Nat × Key)
  | [] => []
  | x :: xs => insertByIndex x (sortByIndex xs)

/-- heap.rs:1413–1476 `own_property_keys` and 1852–1900 `ordinary_own_property_keys`. -/
def Obj.ownKeys (o : Obj) : List Key :=
  (sortByIndex (indexKeys o.props)).map Prod.snd
    ++ plainStringKeys o.props ++ symbolKeys o.props

/-! ## Arrays -/

/-- heap.rs:1082–1105 `array_length_writable` -/
def Obj.lengthWritable (o : Obj) : Except Err Bool :=
  match o.arrayLen with
  | none => .error .invariant
  | some _ =>
    match o.props with
    | [] => .error .invariant
    | e :: _ =>
      if !e.key.isLength then .error .invariant
      else match e.desc.kind with
        | .data _ w => .ok w
        | .accessor .. => .error .invariant

/-- heap.rs:1113–1153 `array_set_length_writable` -/
def setLengthWritable (id : Nat) (w : Bool) : M Unit := do
  let o ← getObj id
  match o.arrayLen, o.props with
  | some _, e :: es =>
    if !e.key.isLength then fail .invariant
    else match e.desc.kind with
      | .data v _ => putObj id { o with props := { e with desc := { e.desc with kind := .data v w } } :: es }
      | .accessor .. => fail .invariant
  | _, _ => fail .invariant

/-- the result of the deletion loop -/
inductive LoopEnd where
  | finished
  | stuckAt (index : Nat)
  deriving DecidableEq, Repr

/-- object_ops.rs:607–625, the deletion loop up to a failed deletion, over the reversed key list. -/
def deleteLoop (id newLen oldLen : Nat) : List Key → M LoopEnd
  | [] => pure .finished
  | k :: ks =>
    match k.arrayIndex with
    | none => deleteLoop id newLen oldLen ks
    | some i =>
      if i < newLen then pure .finished
      else if i ≥ oldLen then deleteLoop id newLen oldLen ks
      else do
        let ok ← ordinaryDelete id k
        if ok then deleteLoop id newLen oldLen ks else pure (.stuckAt i)

/-- `if !new_writable { array_set_length_writable(obj, false)? }` (object_ops.rs:645–647, 653–655) -/
def applyReadOnly (id : Nat) (newWritable : Bool) : M Unit :=
  if newWritable then pure () else setLengthWritable id false

/-- object_ops.rs:625–658, what follows the loop. -/
def finishShrink (id : Nat) (lengthKey : Key) (newWritable : Bool) : LoopEnd → M Bool
  | .finished => do
    applyReadOnly id newWritable
    pure true
  | .stuckAt i => do
    let ok ← ordinaryDefine id lengthKey { value := some (numVal (i + 1)) }
    if !ok then fail .invariant
    else do
      applyReadOnly id newWritable
      pure false

/-- object_ops.rs:576–658, shrinking. -/
def shrink (id : Nat) (lengthKey : Key) (p : Patch) (newLen oldLen : Nat) : M Bool := do
  let newWritable := !(p.writable == some false)
  let p := if newWritable then p else { p with writable := some true }
  let ok ← ordinaryDefine id lengthKey { p with value := some (numVal newLen) }
  if !ok then pure false
  else do
    allocate
    let o ← getObj id
    let r ← deleteLoop id newLen oldLen o.ownKeys.reverse
    finishShrink id lengthKey newWritable r

/-- object_ops.rs:544–658 `array_set_length` -/
def arraySetLength (id : Nat) (lengthKey : Key) (p : Patch) : M Bool :=
  match p.value with
  | none => ordinaryDefine id lengthKey p
  | some v =>
    match arrayLengthFromValue v with
    | none => pure false
    | some newLen => do
      let o ← getObj id
      match o.arrayLen with
      | none => fail .invariant
      | some oldLen =>
        if newLen ≥ oldLen then ordinaryDefine id lengthKey { p with value := some (numVal newLen) }
        else match o.lengthWritable with
          | .error e => fail e
          | .ok false => pure false
          | .ok true => shrink id lengthKey p newLen oldLen

/-- object_ops.rs:521–539, the array-index branch of `array_define_own_property`. -/
def arrayDefineIndex (id : Nat) (k : Key) (p : Patch) (index : Nat) : M Bool := do
  let o ← getObj id
  match o.arrayLen with
  | none => fail .invariant
  | some oldLen =>
    match (if index ≥ oldLen then o.lengthWritable else .ok true) with
    | .error e => fail e
    | .ok false => pure false
    | .ok true => do
      let ok ← ordinaryDefine id k p
      if !ok then pure false
      else if index ≥ oldLen then do
        let o ← getObj id
        match o.arrayLen with
        | none => fail .invariant
        | some _ => do
          putObj id (o.setArrayLength (index + 1))
          pure true
      else pure true

/-- object_ops.rs:482–542 `array_define_own_property`. `array_length_key` (heap.rs:1065–1080) returns the stored
key, which has the same contents as `k`. -/
def arrayDefine (id : Nat) (k : Key) (p : Patch) : M Bool :=
  if !p.valid then fail .invalidPatch
  else do
    allocate
    if k.isLength then arraySetLength id k p
    else match k.arrayIndex with
      | some index => arrayDefineIndex id k p index
      | none => ordinaryDefine id k p

/-- object_ops.rs:76–87 `define_own_property` -/
def defineOwn (id : Nat) (k : Key) (p : Patch) : M Bool := do
  let o ← getObj id
  if o.arrayLen.isSome then arrayDefine id k p else ordinaryDefine id k p

/-- object_ops.rs:430–463 `create_data_property` -/
def createDataProperty (id : Nat) (k : Key) (v : Value) : M Bool := do
  allocate
  defineOwn id k { value := some v, writable := some true, enumerable := some true, configurable := some true }

/-! ## [[Get]], [[Set]] -/

/-- heap.rs:1307–1334 `get_property` on a list of objects; `steps` counts down from `MAX_PROTOTYPE_CHAIN`
(= 10000, heap.rs:23). The visited set is subsumed by the step limit up to which error is reported. -/
def getProperty (objs : List Obj) (k : Key) : Nat → Option Nat → Except Err (Option Desc)
  | _, none => .ok none
  | 0, some _ => .error .prototypeChainTooDeep
  | steps + 1, some id =>
    match objs[id]? with
    | none => .error .invalidHandle
    | some o =>
      match o.getOwn k with
      | some d => .ok (some d)
      | none => getProperty objs k steps o.proto

/-- What `ordinary_set` did: it finished with a boolean or it calls a setter. The body of the setter is further
operations of the history. -/
inductive SetEnd where
  | done (ok : Bool)
  | call (setter receiver value : Value)
  deriving DecidableEq, Repr

def maxPrototypeChain : Nat := 10000

/-- object_ops.rs:262–317, the data-property branch of `ordinary_set`. -/
def setOnReceiver (k : Key) (v : Value) (receiver : Value) : M Bool :=
  match receiver with
  | .object r => do
    let o ← getObj r
    match o.getOwn k with
    | some d =>
      match d.kind with
      | .accessor .. => pure false
      | .data _ w => if !w then pure false else defineOwn r k { value := some v }
    | none => createDataProperty r k v
  | _ => pure false

/-- object_ops.rs:226–317 `ordinary_set` (and the two `_with_host` variants). -/
def ordinarySet (id : Nat) (k : Key) (v : Value) (receiver : Value) : M SetEnd := do
  allocate
  fun s =>
    match getProperty s.objs k maxPrototypeChain (some id) with
    | .error e => (.error e, s)
    | .ok d =>
      match (d.getD ⟨true, true, .data .undefined true⟩).kind with
      | .data _ w => if !w then (.ok (.done false), s) else (do return SetEnd.done (← setOnReceiver k v receiver) : M SetEnd) s
      | .accessor _ set => if set = .undefined then (.ok (.done false), s) else (.ok (.call set receiver v), s)

/-! ## Histories -/

/-- heap.rs:3040–3082 `alloc_array`: the initial array object. -/
def newArray (len : Nat) : Obj :=
  { proto := none
    extensible := true
    props := [⟨.str lengthUnits, ⟨false, false, .data (numVal len) true⟩⟩]
    arrayLen := some len }

/-- heap.rs:2975–2981 `alloc_object`, 2984–3025 `alloc_object_with_properties`. -/
def newObject (proto : Option Nat) (props : List Entry) : Obj :=
  { proto := proto, extensible := true, props := props, arrayLen := none }

/-- The property-level operations of the public API. -/
inductive Op where
  /-- `alloc_object_with_properties` -/
  | newObject (proto : Option Nat) (props : List Entry)
  /-- `alloc_array` -/
  | newArray (len : Nat)
  /-- `define_own_property` (and the `_or_throw` variants) -/
  | define (id : Nat) (k : Key) (p : Patch)
  /-- `create_data_property` -/
  | create (id : Nat) (k : Key) (v : Value)
  /-- `ordinary_delete`, `delete_property_or_throw` -/
  | delete (id : Nat) (k : Key)
  /-- `ordinary_set` -/
  | set (id : Nat) (k : Key) (v : Value) (receiver : Value)
  /-- `object_prevent_extensions` -/
  | preventExtensions (id : Nat)
  /-- `object_set_prototype` with whatever prototype its checks accept -/
  | setProto (id : Nat) (proto : Option Nat)
  deriving Repr

/-- The observable result of an operation. -/
inductive Res where
  | unit
  | bool (b : Bool)
  | set (r : SetEnd)
  | err (e : Err)
  deriving DecidableEq, Repr

def toRes {α : Type} (f : α → Res) : Except Err α × Store → Res × Store
  | (.ok a, s) => (f a, s)
  | (.error e, s) => (.err e, s)

/-- object_ops.rs:20–22 `object_prevent_extensions`, heap.rs:886–893. -/
def preventExtensions (id : Nat) : M Unit := do
  let o ← getObj id
  putObj id { o with extensible := false }

/-- heap.rs:820–866 `object_set_prototype`, the write. -/
def setProto (id : Nat) (proto : Option Nat) : M Unit := do
  let o ← getObj id
  putObj id { o with proto := proto }

/-- the slot write of heap.rs:2423–2480 `alloc_unchecked` -/
def pushObj (o : Obj) : M Unit := fun s => (.ok (), { s with objs := s.objs ++ [o] })

/-- heap.rs:2975–3082, allocation of a new object. `u32::try_from(len)` fails on large lengths (3041–3042). -/
def allocObj (o : Obj) : M Unit := do
  allocate
  pushObj o

/-- One operation of the public API. -/
def step (op : Op) (s : Store) : Res × Store :=
  match op with
  | .newObject proto props => toRes (fun _ => .unit) (allocObj (newObject proto props) s)
  | .newArray len => if len < 2 ^ 32 then toRes (fun _ => .unit) (allocObj (newArray len) s) else (.err .invariant, s)
  | .define id k p => toRes .bool (defineOwn id k p s)
  | .create id k v => toRes .bool (createDataProperty id k v s)
  | .delete id k => toRes .bool (ordinaryDelete id k s)
  | .set id k v r => toRes .set (ordinarySet id k v r s)
  | .preventExtensions id => toRes (fun _ => .unit) (preventExtensions id s)
  | .setProto id p => toRes (fun _ => .unit) (setProto id p s)

/-- A history: the results and the final store. -/
def run : List Op → Store → Store
  | [], s => s
  | op :: ops, s => run ops (step op s).2

end Verif.Objects
