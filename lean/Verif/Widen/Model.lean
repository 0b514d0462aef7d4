import Verif.Types.Theorems
/-!
# Widening of literal types

Models `typecheck-ts/src/check/widen.rs` on the type store of `Verif.Types.Model`. The code
takes the store by shared reference and the store changes behind it; here the store goes in and comes
out. `none` stands for a panic (an identifier that is not there) and for a store that runs out of
identifiers.
-/

namespace Verif.Widen
open Verif.Types
open Verif.Types.Store

/-- `widen.rs` 4–13: `widen_literal`. -/
def widenLiteral (st : Store) (t : Nat) : Option Nat :=
  match st.kind? t with
  | none => none
  | some (.numLit _) => some st.prims.number
  | some (.strLit _) => some st.prims.string
  | some (.boolLit _) => some st.prims.boolean
  | some (.bigLit _) => some st.prims.bigint
  | some _ => some t

/-- `widen.rs` 19–22, 26–29: `members.into_iter().map(…).collect()`, with the store handed on. -/
def mapAll (f : Store → Nat → Option (Store × Nat)) : Store → List Nat → Option (Store × List Nat)
  | st, [] => some (st, [])
  | st, t :: ts =>
    match f st t with
    | none => none
    | some (st, t) =>
      match mapAll f st ts with
      | none => none
      | some (st, ts) => some (st, t :: ts)

/-- `widen.rs` 16–41: `widen_union_literals`, with a bound on the depth of recursion. -/
def widenN (H : Hashes) : Nat → Store → Nat → Option (Store × Nat)
  | 0, _, _ => none
  | n + 1, st, t =>
    match st.kind? t with
    | none => none
    | some (.union ms) =>
      match mapAll (widenN H n) st ms with
      | none => none
      | some (st, ms) => st.union H ms
    | some (.inter ms) =>
      match mapAll (widenN H n) st ms with
      | none => none
      | some (st, ms) => st.intersection H ms
    | some (.array a readonly) =>
      match widenN H n st a with
      | none => none
      | some (st, a) => st.internType H (.array a readonly)
    | some _ =>
      match widenLiteral st t with
      | none => none
      | some t => some (st, t)

/-- `widen.rs` 16–41: `widen_union_literals`. The bound is never met: `C96_bound`. -/
def widen (H : Hashes) (st : Store) (t : Nat) : Option (Store × Nat) := widenN H st.types.length st t

/-- `widen.rs` 44–56: `widen_array_elements`. -/
def widenArrayElements (H : Hashes) (st : Store) (t : Nat) : Option (Store × Nat) :=
  match st.kind? t with
  | none => none
  | some (.array a readonly) =>
    match widen H st a with
    | none => none
    | some (st, a) => st.internType H (.array a readonly)
  | some _ => some (st, t)

/-- `widen.rs` 65–74: the loop over the properties, with the store and `changed` handed on. -/
def widenProps (H : Hashes) : Store → Bool → List Property → Option (Store × Bool × List Property)
  | st, changed, [] => some (st, changed, [])
  | st, changed, p :: ps =>
    if p.data.readonly then
      match widenProps H st changed ps with
      | none => none
      | some (st, changed, ps) => some (st, changed, p :: ps)
    else
      match widen H st p.data.ty with
      | none => none
      | some (st, w) =>
        let p' : Property := if w ≠ p.data.ty then { p with data := { p.data with ty := w } } else p
        match widenProps H st (changed || decide (w ≠ p.data.ty)) ps with
        | none => none
        | some (st, changed, ps) => some (st, changed, p' :: ps)

/-- `widen.rs` 75–84: the loop over the index signatures. -/
def widenIndexers (H : Hashes) : Store → Bool → List Indexer → Option (Store × Bool × List Indexer)
  | st, changed, [] => some (st, changed, [])
  | st, changed, x :: xs =>
    if x.readonly then
      match widenIndexers H st changed xs with
      | none => none
      | some (st, changed, xs) => some (st, changed, x :: xs)
    else
      match widen H st x.valueType with
      | none => none
      | some (st, w) =>
        let x' : Indexer := if w ≠ x.valueType then { x with valueType := w } else x
        match widenIndexers H st (changed || decide (w ≠ x.valueType)) xs with
        | none => none
        | some (st, changed, xs) => some (st, changed, x' :: xs)

/-- `widen.rs` 59–93: `widen_object_literal_props`. -/
def widenObjectProps (H : Hashes) (st : Store) (t : Nat) : Option (Store × Nat) :=
  match st.kind? t with
  | none => none
  | some (.object o) =>
    match st.objects.lookup o with
    | none => none
    | some sh =>
      match st.shapes.lookup sh with
      | none => none
      | some shape =>
        match widenProps H st false shape.properties with
        | none => none
        | some (st, changed, props) =>
          match widenIndexers H st changed shape.indexers with
          | none => none
          | some (st, changed, indexers) =>
            if !changed then some (st, t)
            else
              match st.internShape H { shape with properties := props, indexers := indexers } with
              | none => none
              | some (st, sh) =>
                match st.internObject H sh with
                | none => none
                | some (st, o) => st.internType H (.object o)
  | some _ => some (st, t)

end Verif.Widen
