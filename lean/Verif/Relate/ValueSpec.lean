import Verif.Relate.LawSpec

/-!
# The values of a type (C84)

A small reading of types as sets of values, for types without functions. It is independent of the
rules of the relation engine.
-/

namespace Verif.Relate

/-- Values. An object has some keys and a value for each of them; `fn` is some function. -/
inductive V where
  | undef | null
  | bool (b : Bool) | num (n : Nat) | str (n : Nat) | big (n : Int) | sym (n : Nat)
  | arr (xs : List V)
  | obj (has : PropKey → Bool) (get : PropKey → V)
  | fn

/-- A value without what is inside it. -/
def V.head : V → Val
  | .undef => .undef
  | .null => .null
  | .bool b => .bool b
  | .num n => .num n
  | .str n => .str n
  | .big n => .big n
  | .sym n => .sym n
  | _ => .obj

/-- The values of a type. Optional members may be absent, or undefined unless optional properties
are exact. An object may have more properties than its type names. -/
inductive Mem (C : Ctx) : V → Id → Prop where
  /-- the simple types -/
  | simple {v t} : Has v.head (C.store.kind t) → Mem C v t
  /-- the strings that match a template -/
  | template {n t p} : C.store.kind t = .template p → C.store.strTemplate n p = true →
      Mem C (.str n) t
  | array {xs t e r} : C.store.kind t = .array e r → (∀ x ∈ xs, Mem C x e) → Mem C (.arr xs) t
  /-- a tuple without rest elements -/
  | tuple {xs t} {es : List Elem} : C.store.kind t = .tuple es →
      (∀ e ∈ es, e.rest = false) → xs.length ≤ es.length →
      (∀ (i : Nat) e, es[i]? = some e → e.optional = false → i < xs.length) →
      (∀ (i : Nat) e x, es[i]? = some e → xs[i]? = some x →
        (e.optional = true → x ≠ V.undef) → Mem C x e.ty) → Mem C (.arr xs) t
  /-- an object: `"0"` and `0` are the same key -/
  | object {has get t s} : C.store.kind t = .object s →
      (∀ k k', C.store.otherKey k = some k' → has k' = has k ∧ get k' = get k) →
      (∀ p ∈ s.properties, p.optional = false → has p.key = true) →
      (∀ p ∈ s.properties, has p.key = true →
        (p.optional = true → C.opts.exactOptional = false → get p.key ≠ V.undef) →
        Mem C (get p.key) p.ty) →
      (∀ i ∈ s.indexers, ∀ k, has k = true →
        keyAccepts C.store C.limits.keyDepth i.keyType (keyKind C.store k) = true →
        Mem C (get k) i.valueType) → Mem C (.obj has get) t
  /-- an array as an object: its elements are under number keys -/
  | elements {xs t s} : C.store.kind t = .object s → s.properties = [] → s.calls = [] →
      s.constructs = [] →
      (∀ i ∈ s.indexers,
        keyAccepts C.store C.limits.keyDepth i.keyType .num = true → ∀ x ∈ xs, Mem C x i.valueType) →
      Mem C (.arr xs) t
  | union {v t m ms} : C.store.kind t = .union ms → m ∈ ms → Mem C v m → Mem C v t
  | inter {v t ms} : C.store.kind t = .inter ms → (∀ m ∈ ms, Mem C v m) → Mem C v t
  | ref {v t d as t'} : C.store.kind t = .ref d as → C.store.expand d as = some t' →
      Mem C v t' → Mem C v t

/-- A property of a shape fits an object. -/
def FitsProp (C : Ctx) (has : PropKey → Bool) (get : PropKey → V) (p : Property) : Prop :=
  (p.optional = false → has p.key = true) ∧
  (has p.key = true → (p.optional = true → C.opts.exactOptional = false → get p.key ≠ V.undef) →
    Mem C (get p.key) p.ty)

/-- An index signature fits an object. -/
def FitsIndex (C : Ctx) (has : PropKey → Bool) (get : PropKey → V) (i : Indexer) : Prop :=
  ∀ k, has k = true →
    keyAccepts C.store C.limits.keyDepth i.keyType (keyKind C.store k) = true →
    Mem C (get k) i.valueType

/-- What the parts of the store do that the relation engine relies on: normalizing a type does not
change its values, the union with undefined adds undefined, interning a shape does not change what
fits it, and a template accepted by another has only strings of the other. -/
structure Faithful (C : Ctx) : Prop where
  normalize : ∀ v t, Mem C v (C.store.normalize t) ↔ Mem C v t
  orUndefined : ∀ v t, Mem C v (C.store.orUndefined t) ↔ Mem C v t ∨ v = .undef
  intern : ∀ s has get, (∀ p ∈ s.properties, FitsProp C has get p) →
    (∀ i ∈ s.indexers, FitsIndex C has get i) →
    (∀ p ∈ (C.store.intern s).properties, FitsProp C has get p) ∧
    ∀ i ∈ (C.store.intern s).indexers, FitsIndex C has get i
  internElements : ∀ s, s.properties = [] →
    (C.store.intern s).properties = [] ∧
    ∀ x, (∀ i ∈ s.indexers, keyAccepts C.store C.limits.keyDepth i.keyType .num = true →
        Mem C x i.valueType) →
      ∀ i ∈ (C.store.intern s).indexers,
        keyAccepts C.store C.limits.keyDepth i.keyType .num = true → Mem C x i.valueType
  templates : ∀ p q n, C.store.templates p q = true → C.store.strTemplate n p = true →
    C.store.strTemplate n q = true

/-- Types with a reading as a set of values here. -/
def Readable : Kind → Bool
  | .any | .param _ | .predicate | .conditional _ _ | .deferred | .other | .callable _ => false
  | .tuple es => es.all fun e => !e.rest
  | .object s => s.calls.isEmpty && s.constructs.isEmpty
  | _ => true

/-- What is asked of a source and a target object type: optional properties of the target are there
in the source, index signatures of the source do not stand in for properties, and properties not for
index signatures. -/
def FairShapes (C : Ctx) (s d : Shape) : Prop :=
  (∀ p ∈ d.properties, findProperty C.store s p.key = none →
    p.optional = false ∧ indexerFor C.store C.limits.keyDepth s p.key = none) ∧
  (∀ i ∈ d.indexers, matchingIndexer C.store C.limits.keyDepth s i = none → s.indexers ≠ [])

/-- The pairs of types for which a yes is to be trusted. -/
def Fair (C : Ctx) (a b : Id) : Prop :=
  Readable (C.store.kind a) = true ∧ Readable (C.store.kind b) = true ∧
  match C.store.kind a, C.store.kind b with
  | .union _, .emptyObject => False
  | .inter _, .emptyObject => False
  | .ref _ _, .emptyObject => False
  | .ref d _, .ref _ _ => C.store.variance d = none
  | .tuple s, .tuple d => s.length ≤ d.length
  | .array _ _, .object d => d.properties = [] ∧ d.indexers.length ≤ 1
  | .object s, .object d => FairShapes C s d
  | .inter ms, .object d => ms ≠ [] ∧ ∀ s, merge C.store ms = some s → FairShapes C (C.store.intern s) d
  | _, _ => True

/-- The pairs met when unfolding the rules. -/
inductive Reached (C : Ctx) (a b : Id) (m : Mode) : Id → Id → Mode → Prop where
  | refl : Reached C a b m a b m
  | step {x y k i x' y' k'} : Reached C a b m x y k →
      (i, x', y', k') ∈ (rules C x y k).questions → Reached C a b m x' y' k'

end Verif.Relate
