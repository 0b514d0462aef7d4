import Verif.Env.Model
/-!
# What a client of an environment record relies on

The specification does not mention tables, indices or searches.  An environment is a partial function
from binding identities (symbols) to *cells*; a cell has a name (or none), is mutable or constant, and
either is in its temporal dead zone (`none`) or holds a value.
-/

namespace Verif.Env

/-- One binding as the language defines it. -/
structure Cell (V : Type) where
  name : Option Name
  mutable : Bool
  value : Option V

/-- An environment: which cells exist. -/
abbrev Store (V : Type) := Nat → Option (Cell V)

/-- `k` designates the binding `s`: by its symbol, or by its name (if several bindings of the record
were created with the same name, the one with the least symbol). -/
def Designates {V : Type} (S : Store V) (k : Target) (s : Nat) : Prop :=
  match k with
  | .symbol s' => s = s' ∧ (S s).isSome
  | .name n => (∃ c, S s = some c ∧ c.name = some n) ∧
      ∀ s' < s, ∀ c, S s' = some c → c.name ≠ some n

/-- `k` designates nothing. -/
def Unbound {V : Type} (S : Store V) (k : Target) : Prop := ∀ s, ¬ Designates S k s

/-- The environment with the cell of `s` replaced. -/
def Store.put {V : Type} (S : Store V) (s : Nat) (c : Cell V) : Store V :=
  fun s' => if s' = s then some c else S s'

/-- The meaning of the operations: `Steps S op r S'` says that `op` on `S` may answer `r` and leave
`S'`. -/
inductive Steps {V : Type} : Store V → Op V → Res V → Store V → Prop where
  | has_true {S k s} : Designates S k s → Steps S (.has k) (.bool true) S
  | has_false {S k} : Unbound S k → Steps S (.has k) (.bool false) S
  /-- Reading an initialised binding yields its value; reading in the dead zone is refused. -/
  | get {S k s c v} : Designates S k s → S s = some c → c.value = some v →
      Steps S (.get k) (.value v) S
  | get_tdz {S k s c} : Designates S k s → S s = some c → c.value = none →
      Steps S (.get k) .tdz S
  | get_unbound {S k} : Unbound S k → Steps S (.get k) .unbound S
  /-- Initialising ends the dead zone, once. -/
  | init {S k s c v} : Designates S k s → S s = some c → c.value = none →
      Steps S (.init k v) .done (S.put s { c with value := some v })
  | init_again {S k s c v w} : Designates S k s → S s = some c → c.value = some w →
      Steps S (.init k v) .alreadyInitialized S
  | init_unbound {S k v} : Unbound S k → Steps S (.init k v) .unbound S
  /-- Assignment needs an initialised mutable binding. -/
  | set {S k s c v w} : Designates S k s → S s = some c → c.value = some w → c.mutable = true →
      Steps S (.set k v) .done (S.put s { c with value := some v })
  | set_const {S k s c v w} : Designates S k s → S s = some c → c.value = some w →
      c.mutable = false → Steps S (.set k v) .constAssign S
  | set_tdz {S k s c v} : Designates S k s → S s = some c → c.value = none →
      Steps S (.set k v) .tdz S
  | set_unbound {S k v} : Unbound S k → Steps S (.set k v) .unbound S
  /-- A new binding starts in its dead zone; its identity and its name are new. -/
  | create {S n m s} : Unbound S (.name n) → S s = none →
      Steps S (.create n m s false) .done
        (S.put s { name := some n, mutable := m, value := none })
  | create_name_exists {S n m s oom s'} : Designates S (.name n) s' →
      Steps S (.create n m s oom) .duplicate S
  | create_symbol_exists {S n m s} : Unbound S (.name n) → (S s).isSome →
      Steps S (.create n m s false) .duplicate S
  | create_oom {S n m s} : Unbound S (.name n) → Steps S (.create n m s true) .outOfMemory S

/-- Sequences of operations. -/
inductive StepsList {V : Type} : Store V → List (Op V) → List (Res V) → Store V → Prop where
  | nil {S} : StepsList S [] [] S
  | cons {S op r S' ops rs S''} : Steps S op r S' → StepsList S' ops rs S'' →
      StepsList S (op :: ops) (r :: rs) S''

/-- The cell a binding record stands for. -/
def Binding.cell {V : Type} (b : Binding V) : Cell V :=
  { name := b.name
    mutable := b.mutable
    value := if b.initialized then some b.value else none }

/-- The environment a table stands for: the cell of the record with that symbol. -/
def Table.store {V : Type} (t : Table V) : Store V :=
  fun s => (t.find? (fun b => b.symbol = s)).map Binding.cell

/-- Tables that clients can obtain: allocate a record, then perform operations. -/
inductive Reachable {V : Type} (undef : V) : Table V → Prop where
  | alloc {bs t} : allocRecord bs false = .ok t → Reachable undef t
  | step {t op} : Reachable undef t → Reachable undef (step undef t op).2

/-- The operation writes through `k`. -/
def Op.writes {V : Type} : Op V → Option Target
  | .init k _ => some k
  | .set k _ => some k
  | _ => none

/-- No operation in `ops`, performed one after the other from `t`, successfully writes binding `s`. -/
def NoWrite {V : Type} (undef : V) (s : Nat) : Table V → List (Op V) → Prop
  | _, [] => True
  | t, op :: ops =>
    (∀ k, op.writes = some k → Designates (Table.store t) k s → (step undef t op).1 ≠ .done) ∧
      NoWrite undef s (step undef t op).2 ops

/-- No operation in `ops` successfully initialises binding `s`. -/
def NoInit {V : Type} (undef : V) (s : Nat) : Table V → List (Op V) → Prop
  | _, [] => True
  | t, op :: ops =>
    (∀ k v, op = .init k v → Designates (Table.store t) k s →
        (step undef t op).1 ≠ .done) ∧
      NoInit undef s (step undef t op).2 ops

end Verif.Env
