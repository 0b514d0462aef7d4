import Verif.Types.Spec
/-!
# What widening should do

Independent of `Verif.Widen.Model`.
-/

namespace Verif.Widen
open Verif.Types

/-- `Wide st O arr v t`: the value `v` belongs to `t` when every literal type in sight is read as the
primitive type it is part of. `arr r v xs` says that `v` is an array value with the elements `xs` (`r`:
seen as a read-only array). Unions, intersections and arrays are looked into; everything else has the
values it always has. -/
inductive Wide (st : Store) (O : Kind → Val → Prop) (arr : Bool → Val → List Val → Prop) :
    Val → Nat → Prop where
  | bool {b c : Bool} {t : Nat} : st.kind? t = some (.boolLit c) → Wide st O arr (.bool b) t
  | num {r q : Int} {t : Nat} : st.kind? t = some (.numLit q) → Wide st O arr (.num r) t
  | str {n m : Nat} {t : Nat} : st.kind? t = some (.strLit m) → Wide st O arr (.str n) t
  | big {i j : Int} {t : Nat} : st.kind? t = some (.bigLit j) → Wide st O arr (.big i) t
  | union {v : Val} {t m : Nat} {ms : List Nat} : st.kind? t = some (.union ms) → m ∈ ms →
      Wide st O arr v m → Wide st O arr v t
  | inter {v : Val} {t : Nat} {ms : List Nat} : st.kind? t = some (.inter ms) →
      (∀ m ∈ ms, Wide st O arr v m) → Wide st O arr v t
  | array {v : Val} {t a : Nat} {r : Bool} {xs : List Val} : st.kind? t = some (.array a r) →
      arr r v xs → (∀ x ∈ xs, Wide st O arr x a) → Wide st O arr v t
  | other {v : Val} {t : Nat} {k : Kind} : st.kind? t = some k →
      (∀ c, k ≠ .boolLit c) → (∀ q, k ≠ .numLit q) → (∀ m, k ≠ .strLit m) → (∀ j, k ≠ .bigLit j) →
      (∀ ms, k ≠ .union ms) → (∀ ms, k ≠ .inter ms) → (∀ a r, k ≠ .array a r) →
      Has st O v t → Wide st O arr v t

/-- The reading `O` of the kinds that are left open reads the array types of the store by their
elements. -/
def ReadsArrays (st : Store) (O : Kind → Val → Prop) (arr : Bool → Val → List Val → Prop) : Prop :=
  ∀ (t a : Nat) (r : Bool) (v : Val), st.kind? t = some (.array a r) →
    (O (.array a r) v ↔ ∃ xs, arr r v xs ∧ ∀ x ∈ xs, Has st O x a)

/-- `Exposed st t x`: the type `x` is `t` or sits in it below unions, intersections and arrays only. -/
inductive Exposed (st : Store) : Nat → Nat → Prop where
  | self {t : Nat} : Exposed st t t
  | union {t m x : Nat} {ms : List Nat} : st.kind? t = some (.union ms) → m ∈ ms → Exposed st m x →
      Exposed st t x
  | inter {t m x : Nat} {ms : List Nat} : st.kind? t = some (.inter ms) → m ∈ ms → Exposed st m x →
      Exposed st t x
  | array {t a x : Nat} {r : Bool} : st.kind? t = some (.array a r) → Exposed st a x → Exposed st t x

/-- Literal types. -/
def IsLiteral : Kind → Prop
  | .boolLit _ | .numLit _ | .strLit _ | .bigLit _ => True
  | _ => False

/-- No literal type is exposed. -/
def NoLiteral (st : Store) (t : Nat) : Prop :=
  ∀ x k, Exposed st t x → st.kind? x = some k → ¬ IsLiteral k

/-- The type `b` of the store `st'` is what the type `a` of the store `st` should widen to. -/
structure WidenedTo (st st' : Store) (a b : Nat) : Prop where
  values : ∀ (O : Kind → Val → Prop) (arr : Bool → Val → List Val → Prop), ReadsArrays st' O arr →
    ∀ v, Has st' O v b ↔ Wide st O arr v a
  noLiteral : NoLiteral st' b
  same : NoLiteral st a → b = a

/-- A property of an object literal and what it becomes: only the type of a mutable property changes. -/
structure PropWidened (st st' : Store) (p p' : Property) : Prop where
  rest : p' = { p with data := { p.data with ty := p'.data.ty } }
  readonly : p.data.readonly = true → p'.data.ty = p.data.ty
  mutable : p.data.readonly = false → WidenedTo st st' p.data.ty p'.data.ty

/-- The same for an index signature. -/
structure IndexerWidened (st st' : Store) (x x' : Indexer) : Prop where
  rest : x' = { x with valueType := x'.valueType }
  readonly : x.readonly = true → x'.valueType = x.valueType
  mutable : x.readonly = false → WidenedTo st st' x.valueType x'.valueType

/-- An object shape and what it becomes: the same members, one for one, and the same overloads. -/
structure ShapeWidened (st st' : Store) (s s' : Shape) : Prop where
  keys : (s'.properties.map Property.key).Perm (s.properties.map Property.key)
  props : ∀ p ∈ s.properties, ∃ p' ∈ s'.properties, PropWidened st st' p p'
  keyTypes : (s'.indexers.map Indexer.keyType).Perm (s.indexers.map Indexer.keyType)
  indexers : ∀ x ∈ s.indexers, ∃ x' ∈ s'.indexers, IndexerWidened st st' x x'
  callSigs : ∀ o, o ∈ s'.callSigs ↔ o ∈ s.callSigs
  constructSigs : ∀ o, o ∈ s'.constructSigs ↔ o ∈ s.constructSigs

end Verif.Widen
