import Verif.Types.Model
/-!
# What users of the type store rely on

A small reading of types as sets of values, and the stores that a program can build.
-/

namespace Verif.Types
open Store

/-! ## Stores that can be built -/

/-- The types mentioned by a kind. -/
def kindTypes : Kind → List Nat
  | .infer _ c => c.toList
  | .tuple es => es.map TupleElem.ty
  | .array t _ => [t]
  | .union ms => ms
  | .inter ms => ms
  | .ref _ args => args
  | .predicate _ a _ => a.toList
  | .conditional c e t f _ => [c, e, t, f]
  | .mapped m => [m.source, m.value] ++ m.nameType.toList ++ m.asType.toList
  | .template _ spans => spans.map TemplateChunk.ty
  | .indexed o i => [o, i]
  | .keyOf t => [t]
  | .intrinsic _ t => [t]
  | _ => []

/-- The types mentioned by a signature. -/
def sigTypes (s : Signature) : List Nat :=
  s.params.map Param.ty ++ [s.ret] ++
    s.typeParams.flatMap (fun p => p.constraint.toList ++ p.default_.toList) ++ s.thisParam.toList

/-- The types mentioned by the properties and index signatures of a shape. -/
def shapeTypes (s : Shape) : List Nat :=
  s.properties.map (fun p => p.data.ty) ++ s.indexers.flatMap (fun x => [x.keyType, x.valueType])

/-- The signatures mentioned by a shape. -/
def shapeSigs (s : Shape) : List Nat := s.callSigs ++ s.constructSigs

/-- The name in a property key is an interned one. -/
def KeyKnown (st : Store) : PropKey → Prop
  | .string n => (st.names.byId.lookup n).isSome
  | .symbol n => (st.names.byId.lookup n).isSome
  | .number _ => True

def TypesKnown (st : Store) (ts : List Nat) : Prop := ∀ t ∈ ts, (st.kind? t).isSome

def SigsKnown (st : Store) (ss : List Nat) : Prop := ∀ s ∈ ss, (st.sigs.lookup s).isSome

/-- Everything a kind mentions is in the store. -/
structure KindKnown (st : Store) (k : Kind) : Prop where
  types : TypesKnown st (kindTypes k)
  object : ∀ o, k = .object o → (st.objects.lookup o).isSome
  sigs : ∀ ss, k = .callable ss → SigsKnown st ss
  name : ∀ n, k = .strLit n → (st.names.byId.lookup n).isSome

/-- Everything a shape mentions is in the store. -/
structure ShapeKnown (st : Store) (s : Shape) : Prop where
  types : TypesKnown st (shapeTypes s)
  sigs : SigsKnown st (shapeSigs s)
  keys : ∀ p ∈ s.properties, KeyKnown st p.key

/-- The operations of the store's interface that intern something. -/
inductive Op where
  | name (s : List Nat)
  | type (k : Kind)
  | signature (s : Signature)
  | shape (s : Shape)
  | object (shape : Nat)
  | union (ms : List Nat)
  | inter (ms : List Nat)
  | canon (t : Nat)

/-- The identifiers passed in were handed out by the store. -/
def Op.Known (st : Store) : Op → Prop
  | .name _ => True
  | .type k => KindKnown st k
  | .signature s => TypesKnown st (sigTypes s)
  | .shape s => ShapeKnown st s
  | .object sh => (st.shapes.lookup sh).isSome
  | .union ms => TypesKnown st ms
  | .inter ms => TypesKnown st ms
  | .canon t => (st.kind? t).isSome

/-- Run an operation. -/
def Op.run (H : Hashes) (st : Store) : Op → Option (Store × Nat)
  | .name s => st.internName H s
  | .type k => st.internType H k
  | .signature s => st.internSignature H s
  | .shape s => st.internShape H s
  | .object sh => st.internObject H sh
  | .union ms => st.union H ms
  | .inter ms => st.intersection H ms
  | .canon t => st.canon H t

/-- The stores that some sequence of operations builds. -/
inductive Reachable (H : Hashes) : Store → Prop where
  | new {st : Store} : Store.new H = some st → Reachable H st
  | op {st st' : Store} {o : Op} {i : Nat} : Reachable H st → o.Known st → o.run H st = some (st', i) →
      Reachable H st'

/-- The stores that a store turns into. -/
inductive Later (H : Hashes) (st : Store) : Store → Prop where
  | refl : Later H st st
  | op {st' st'' : Store} {o : Op} {i : Nat} : Later H st st' → o.Known st' →
      o.run H st' = some (st'', i) → Later H st st''

/-- A literal type and the primitive type it is part of. -/
def PartOf : Kind → Kind → Prop
  | .boolLit _, .boolean => True
  | .numLit _, .number => True
  | .strLit _, .string => True
  | .template _ _, .string => True
  | .bigLit _, .bigint => True
  | .uniqueSymbol, .symbol => True
  | _, _ => False

/-- Two types with no value in common that can be told from their kinds: they belong to different
primitive types, or are different literals of the same one. -/
def Family : Kind → Kind → Prop
  | .boolean, .boolean | .boolLit _, .boolean => True
  | .number, .number | .numLit _, .number => True
  | .string, .string | .strLit _, .string | .template _ _, .string => True
  | .bigint, .bigint | .bigLit _, .bigint => True
  | .symbol, .symbol | .uniqueSymbol, .symbol => True
  | _, _ => False

def Disjoint (a b : Kind) : Prop :=
  (∃ p q, Family a p ∧ Family b q ∧ p ≠ q) ∨
  a ≠ b ∧ ((∃ x y, a = .boolLit x ∧ b = .boolLit y) ∨ (∃ x y, a = .numLit x ∧ b = .numLit y) ∨
    (∃ x y, a = .strLit x ∧ b = .strLit y) ∨ (∃ x y, a = .bigLit x ∧ b = .bigLit y))

/-- Member lists of unions in canonical form. -/
structure NormalUnion (st : Store) (ms : List Nat) : Prop where
  two : 2 ≤ ms.length
  nodup : ms.Nodup
  flat : ∀ m ∈ ms, ∀ k, st.kind? m = some k →
    k ≠ .any ∧ k ≠ .unknown ∧ k ≠ .never ∧ ∀ inner, k ≠ .union inner
  minimal : ∀ m ∈ ms, ∀ p ∈ ms, ∀ k q, st.kind? m = some k → st.kind? p = some q → ¬ PartOf k q
  notBoolean : ∀ a b x y, ms = [a, b] → st.kind? a = some (.boolLit x) → st.kind? b = some (.boolLit y) →
    False

/-- Member lists of intersections in canonical form. -/
structure NormalInter (st : Store) (ms : List Nat) : Prop where
  two : 2 ≤ ms.length
  nodup : ms.Nodup
  flat : ∀ m ∈ ms, ∀ k, st.kind? m = some k →
    k ≠ .any ∧ k ≠ .unknown ∧ k ≠ .never ∧ ∀ inner, k ≠ .inter inner
  minimal : ∀ m ∈ ms, ∀ p ∈ ms, ∀ k q, st.kind? m = some k → st.kind? p = some q → ¬ PartOf k q
  inhabited : ∀ m ∈ ms, ∀ p ∈ ms, ∀ k q, st.kind? m = some k → st.kind? p = some q → ¬ Disjoint k q

/-! ## Types as sets of values -/

/-- Values, as far as unions and intersections can tell them apart. A number stands for itself by its
place in the order of numbers; a string by its interned name; `other` is anything else. -/
inductive Val where
  | bool (b : Bool)
  | num (r : Int)
  | str (n : Nat)
  | big (i : Int)
  | sym (s : Nat)
  | other (n : Nat)
deriving DecidableEq

/-- The kinds whose values this reading leaves open. -/
def Opaque : Kind → Prop
  | .any | .unknown | .never | .boolean | .number | .string | .bigint | .symbol | .uniqueSymbol => False
  | .boolLit _ | .numLit _ | .strLit _ | .bigLit _ | .template _ _ | .union _ | .inter _ => False
  | _ => True

/-- `Has st O v t`: the value `v` belongs to the type `t`. `O` says which values belong to the kinds
that are left open, which strings match a template, and which symbols a `unique symbol` admits. -/
inductive Has (st : Store) (O : Kind → Val → Prop) : Val → Nat → Prop where
  | any {v : Val} {t : Nat} : st.kind? t = some .any → Has st O v t
  | unknown {v : Val} {t : Nat} : st.kind? t = some .unknown → Has st O v t
  | boolean {b : Bool} {t : Nat} : st.kind? t = some .boolean → Has st O (.bool b) t
  | number {r : Int} {t : Nat} : st.kind? t = some .number → Has st O (.num r) t
  | string {n : Nat} {t : Nat} : st.kind? t = some .string → Has st O (.str n) t
  | bigint {i : Int} {t : Nat} : st.kind? t = some .bigint → Has st O (.big i) t
  | symbol {s : Nat} {t : Nat} : st.kind? t = some .symbol → Has st O (.sym s) t
  | boolLit {b : Bool} {t : Nat} : st.kind? t = some (.boolLit b) → Has st O (.bool b) t
  | numLit {r : Int} {t : Nat} : st.kind? t = some (.numLit r) → Has st O (.num r) t
  | strLit {n : Nat} {t : Nat} : st.kind? t = some (.strLit n) → Has st O (.str n) t
  | bigLit {i : Int} {t : Nat} : st.kind? t = some (.bigLit i) → Has st O (.big i) t
  | template {n t : Nat} {h : List Nat} {s : List TemplateChunk} :
      st.kind? t = some (.template h s) → O (.template h s) (.str n) → Has st O (.str n) t
  | uniqueSymbol {s t : Nat} : st.kind? t = some .uniqueSymbol → O .uniqueSymbol (.sym s) →
      Has st O (.sym s) t
  | union {v : Val} {t m : Nat} {ms : List Nat} : st.kind? t = some (.union ms) → m ∈ ms →
      Has st O v m → Has st O v t
  | inter {v : Val} {t : Nat} {ms : List Nat} : st.kind? t = some (.inter ms) →
      (∀ m ∈ ms, Has st O v m) → Has st O v t
  | open_ {v : Val} {t : Nat} {k : Kind} : st.kind? t = some k → Opaque k → O k v → Has st O v t

end Verif.Types
