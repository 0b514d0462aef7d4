import Verif.Harness.Lemmas
/-!
# Interning by fingerprint, with rehashing on collision

`types-ts-interned/src/store.rs`. Identifiers are fingerprints of the value and a salt; the maps are
`DashMap`s shared between threads. A map is an association list with the newest entry first.
-/

namespace Verif.Types

variable {I V : Type} [BEq I] [DecidableEq V]

/-- `store.rs` 317, 325 (`salt.wrapping_add(1)` on a `u64`): the salt after `tries` retries. -/
def saltAt (tries : Nat) : Nat := tries % 2 ^ 64

/-- What one pass through the loop body of `insert_with_collision` leads to. -/
inductive Pass (I : Type) where
  | done : I → Pass I
  | retry : Pass I
deriving DecidableEq

/-- `store.rs` 319–331: one pass. `map.entry(id)` holds the lock of the shard,
so looking at the entry and filling it is one atomic action. `mk` is `make_id`. -/
def pass (mk : V → Nat → I) (m : List (I × V)) (v : V) (tries : Nat) : List (I × V) × Pass I :=
  let id := mk v (saltAt tries)
  match m.lookup id with
  | some w => if w = v then (m, .done id) else (m, .retry)
  | none => ((id, v) :: m, .done id)

/-- `store.rs` 317–333: `insert_with_collision` run without interruption. After `2 ^ 64` passes the
salts repeat, and the code loops for ever: the model answers `none`. -/
def insertFrom (mk : V → Nat → I) (m : List (I × V)) (v : V) : (fuel : Nat) → (tries : Nat) →
    Option (List (I × V) × I)
  | 0, _ => none
  | n + 1, tries =>
    match pass mk m v tries with
    | (m', .done id) => some (m', id)
    | (_, .retry) => insertFrom mk m v n (tries + 1)

/-- `store.rs` 283–335: `insert_with_collision`. -/
def insertWithCollision (mk : V → Nat → I) (m : List (I × V)) (v : V) : Option (List (I × V) × I) :=
  insertFrom mk m v (2 ^ 64) 0

/-- `store.rs` 294–313: `insert_with_collision` with the feature `strict-determinism`; `none` is the
panic on a collision. -/
def insertStrict (mk : V → Nat → I) (m : List (I × V)) (v : V) : Option (List (I × V) × I) :=
  match pass mk m v 0 with
  | (m', .done id) => some (m', id)
  | (_, .retry) => none

/-! ## Threads -/

/-- A call of `insert_with_collision` by some thread: its value, the retries so far, its answer. -/
structure Call (I V : Type) where
  value : V
  tries : Nat
  answer : Option I

/-- The map and all calls made so far. -/
structure Sys (I V : Type) where
  map : List (I × V)
  calls : List (Call I V)

/-- What the scheduler may do: a thread calls the function, or a call takes its next pass. -/
inductive Event (V : Type) where
  | call : V → Event V
  | go : Nat → Event V

/-- `store.rs` 317–333: one event. A finished call does nothing more. -/
def Sys.step (mk : V → Nat → I) (s : Sys I V) : Event V → Sys I V
  | .call v => { s with calls := s.calls ++ [⟨v, 0, none⟩] }
  | .go i =>
    match s.calls[i]? with
    | none => s
    | some c =>
      match c.answer with
      | some _ => s
      | none =>
        match pass mk s.map c.value c.tries with
        | (m', .done id) => ⟨m', s.calls.set i { c with answer := some id }⟩
        | (m', .retry) => ⟨m', s.calls.set i { c with tries := c.tries + 1 }⟩

/-- A schedule, from an empty map. -/
def Sys.run (mk : V → Nat → I) (es : List (Event V)) : Sys I V :=
  es.foldl (Sys.step mk) ⟨[], []⟩

/-! ## Names -/

/-- `store.rs` 65–69: `NameInterner`. -/
structure Names where
  byName : List (List Nat × Nat)
  byId : List (Nat × List Nat)
deriving DecidableEq

/-- `store.rs` 106–123: the loop of `NameInterner::intern`. -/
def Names.probe (mk : List Nat → Nat → Nat) (s : Names) (name : List Nat) : (fuel : Nat) →
    (tries : Nat) → Option (Names × Nat)
  | 0, _ => none
  | n + 1, tries =>
    let id := mk name (saltAt tries)
    match s.byId.lookup id with
    | none => some (⟨(name, id) :: s.byName, (id, name) :: s.byId⟩, id)
    | some existing =>
      if existing = name then some (⟨(name, id) :: s.byName, s.byId⟩, id)
      else s.probe mk name n (tries + 1)

/-- `store.rs` 76–125: `NameInterner::intern`, run under the write lock (506–508). -/
def Names.intern (mk : List Nat → Nat → Nat) (s : Names) (name : List Nat) : Option (Names × Nat) :=
  match s.byName.lookup name with
  | some id => some (s, id)
  | none => s.probe mk name (2 ^ 64) 0

/-! ## Snapshots -/

/-- `store.rs` 388–416: the entries of a map, sorted by identifier. -/
def snapshotMap (cmp : I → I → Ordering) (m : List (I × V)) : List (I × V) :=
  Harness.sortBy (fun a b => cmp a.1 b.1) m

/-- `store.rs` 336–354: `insert_with_expected_id`; `none` is the panic. -/
def insertExpected (m : List (I × V)) (e : I × V) : Option (List (I × V)) :=
  match m.lookup e.1 with
  | some w => if w = e.2 then some m else none
  | none => some (e :: m)

/-- `store.rs` 469–480: `from_snapshot_inner` for one map. -/
def restoreMap (es : List (I × V)) : Option (List (I × V)) := es.foldlM insertExpected []

end Verif.Types
