/-!
# Model of declarative environment records

Models `/repo/vm-js/src/env.rs` (`DeclarativeEnvRecord`, `EnvBinding`) and the operations of
`/repo/vm-js/src/heap.rs` on them (`env_has_binding`, `env_initialize_binding`,
`env_get_binding_value`, `env_set_mutable_binding`, their `*_symbol_binding` variants,
`env_add_binding`, `alloc_declarative_env_record`, `env_create`, `env_create_mutable_binding`,
`env_create_immutable_binding`).

Simplifications: a name is its sequence of UTF-16 code units, not a handle to a heap string
(`gc_string_eq_str` compares exactly these); values are of an arbitrary type `V` with a distinguished
`undefined`; the handle of the environment is valid and denotes a declarative record (otherwise every
operation fails at once); whether an allocation fails is a parameter of the operation that allocates;
`strict` is stored but never read by the code and is omitted.
-/

namespace Verif.Env

/-- UTF-16 code units of a name. -/
abbrev Name := List Nat

/-- `env.rs` 213–221: `EnvBinding` (`SymbolId` is a number). -/
structure Binding (V : Type) where
  symbol : Nat
  name : Option Name
  value : V
  mutable : Bool
  initialized : Bool
deriving DecidableEq, Repr

/-- `env.rs` 6–12: the binding table of a `DeclarativeEnvRecord` (the other fields play no role here). -/
abbrev Table (V : Type) := List (Binding V)

/-- The ways an operation ends: success, or one of the errors of `env.rs` 61–128 and
`heap.rs` 1945–2138: `Unimplemented("unbound identifier")`, `Throw(Null)` (the TDZ sentinel),
`Throw(Undefined)` (the assignment-to-const sentinel),
`Unimplemented("binding already initialized")`, `Unimplemented("duplicate …")`, `OutOfMemory`,
and the index-out-of-bounds error. -/
inductive Res (V : Type) where
  | value (v : V)
  | done
  | bool (b : Bool)
  | unbound
  | tdz
  | constAssign
  | alreadyInitialized
  | duplicate
  | outOfMemory
  | outOfBounds
deriving DecidableEq, Repr

/-- `slice::binary_search_by_key` on the table, keyed by the symbol (used at `env.rs` 49–55 and
`heap.rs` 2121): halving the range `low..high`; `inl` is `Ok idx`, `inr` is `Err idx`.  The first
argument bounds the number of rounds (the length of the table is always enough). -/
def search {V : Type} (key : Nat) (t : Table V) : Nat → Nat → Nat → Nat ⊕ Nat
  | 0, low, _ => .inr low
  | fuel + 1, low, high =>
    if low < high then
      match t[low + (high - low) / 2]? with
      | none => .inr low
      | some b =>
        if b.symbol < key then search key t fuel (low + (high - low) / 2 + 1) high
        else if key < b.symbol then search key t fuel low (low + (high - low) / 2)
        else .inl (low + (high - low) / 2)
    else .inr low

/-- `env.rs` 48–55: `symbol_binding_index`. -/
def symbolIndex {V : Type} (t : Table V) (s : Nat) : Option Nat :=
  match search s t t.length 0 t.length with
  | .inl i => some i
  | .inr _ => none

/-- `env.rs` 33–47: `find_binding_index`: the first binding, in table order, with this name. -/
def nameIndexFrom {V : Type} (n : Name) : Nat → Table V → Option Nat
  | _, [] => none
  | i, b :: t => if b.name = some n then some i else nameIndexFrom n (i + 1) t

/-- How an operation names the binding it works on: `env_*_symbol_binding` or `env_*_binding`. -/
inductive Target where
  | symbol (s : Nat)
  | name (n : Name)
deriving DecidableEq, Repr

/-- The index look-up both API variants start with. -/
def Target.index {V : Type} (t : Table V) : Target → Option Nat
  | .symbol s => symbolIndex t s
  | .name n => nameIndexFrom n 0 t

/-- `env.rs` 57–59 `has_symbol_binding` / `heap.rs` 1936–1943 `env_has_binding`. -/
def has {V : Type} (t : Table V) (k : Target) : Bool := (k.index t).isSome

/-- `env.rs` 61–79 `get_symbol_binding_value` / `heap.rs` 1977–2000 `env_get_binding_value`. -/
def get {V : Type} (t : Table V) (k : Target) : Res V :=
  match k.index t with
  | none => .unbound
  | some i =>
    match t[i]? with
    | none => .outOfBounds
    | some b => if b.initialized then .value b.value else .tdz

/-- `env.rs` 81–101 `initialize_symbol_binding` / `heap.rs` 1945–1975 `env_initialize_binding`. -/
def initBinding {V : Type} (t : Table V) (k : Target) (v : V) : Res V × Table V :=
  match k.index t with
  | none => (.unbound, t)
  | some i =>
    match t[i]? with
    | none => (.outOfBounds, t)
    | some b =>
      if b.initialized then (.alreadyInitialized, t)
      else (.done, t.set i { b with value := v, initialized := true })

/-- `env.rs` 103–128 `set_mutable_symbol_binding` / `heap.rs` 2002–2042
`env_set_mutable_binding`. -/
def setMutable {V : Type} (t : Table V) (k : Target) (v : V) : Res V × Table V :=
  match k.index t with
  | none => (.unbound, t)
  | some i =>
    match t[i]? with
    | none => (.outOfBounds, t)
    | some b =>
      if !b.initialized then (.tdz, t)
      else if !b.mutable then (.constAssign, t)
      else (.done, t.set i { b with value := v })

/-- `heap.rs` 2085–2138: `env_add_binding`. -/
def addBinding {V : Type} (t : Table V) (b : Binding V) (oom : Bool) : Res V × Table V :=
  if oom then (.outOfMemory, t)
  else
    match search b.symbol t t.length 0 t.length with
    | .inl _ => (.duplicate, t)
    | .inr i => (.done, t.take i ++ b :: t.drop i)

/-- `heap.rs` 3433–3459 `env_create_mutable_binding` (`mutable = true`) and 3461–3487
`env_create_immutable_binding` (`mutable = false`).  `sym` is the raw id of the string allocated for
the name; `oom` says that an allocation (roots, the string, the new table) fails. -/
def createBinding {V : Type} (undef : V) (t : Table V) (n : Name) (isMut : Bool) (sym : Nat)
    (oom : Bool) : Res V × Table V :=
  if has t (.name n) then (.duplicate, t)
  else addBinding t
    { symbol := sym, name := some n, value := undef, mutable := isMut, initialized := false } oom

/-- `sort_by_key(|b| b.symbol)` (`heap.rs` 3353), a stable sort: insertion after equal keys. -/
def insertSorted {V : Type} (b : Binding V) : Table V → Table V
  | [] => [b]
  | c :: t => if b.symbol < c.symbol then b :: c :: t else c :: insertSorted b t

/-- `heap.rs` 3353: the sorted table (elements are inserted in order, so equal keys keep theirs). -/
def sortTable {V : Type} (bs : List (Binding V)) : Table V :=
  bs.foldl (fun t b => insertSorted b t) []

/-- `heap.rs` 3354–3357: `windows(2).any(|pair| pair[0].symbol == pair[1].symbol)`. -/
def hasAdjacentDuplicate {V : Type} : Table V → Bool
  | [] => false
  | [_] => false
  | a :: b :: t => a.symbol == b.symbol || hasAdjacentDuplicate (b :: t)

/-- `heap.rs` 3310–3368: `alloc_declarative_env_record`, the table of the new record.
`env_create` (`heap.rs` 3418–3431) is the case of no bindings. -/
def allocRecord {V : Type} (bs : List (Binding V)) (oom : Bool) : Except (Res V) (Table V) :=
  if oom then .error .outOfMemory
  else if hasAdjacentDuplicate (sortTable bs) then .error .duplicate
  else .ok (sortTable bs)

/-- The operations a client performs on one environment record. -/
inductive Op (V : Type) where
  | has (k : Target)
  | get (k : Target)
  | init (k : Target) (v : V)
  | set (k : Target) (v : V)
  | create (n : Name) (isMut : Bool) (sym : Nat) (oom : Bool)
deriving DecidableEq, Repr

/-- One operation: its result and the table afterwards. -/
def step {V : Type} (undef : V) (t : Table V) : Op V → Res V × Table V
  | .has k => (.bool (has t k), t)
  | .get k => (get t k, t)
  | .init k v => initBinding t k v
  | .set k v => setMutable t k v
  | .create n m s oom => createBinding undef t n m s oom

/-- A sequence of operations: all results and the final table. -/
def run {V : Type} (undef : V) (t : Table V) : List (Op V) → List (Res V) × Table V
  | [] => ([], t)
  | op :: ops =>
    ((step undef t op).1 :: (run undef (step undef t op).2 ops).1,
      (run undef (step undef t op).2 ops).2)

end Verif.Env
