import Verif.Types.Theorems
/-!
# Substitution of type parameters

Models `Substituter` of `typecheck-ts/src/check/instantiate.rs` on the type store of
`Verif.Types.Model`. `none` stands for a panic (an identifier that is not there), for a store that runs
out of identifiers and for the bound on the depth of recursion.
-/

namespace Verif.Subst
open Verif.Types
open Verif.Types.Store

/-- `instantiate.rs` 16–22: `Substituter`, without the mapping, which does not change. -/
structure Sub where
  store : Store
  types : List (Nat × Nat)
  sigs : List (Nat × Nat)
  shapes : List (Nat × Nat)
deriving DecidableEq

/-- `instantiate.rs` 26–34: `Substituter::new`. -/
def Sub.fresh (st : Store) : Sub := ⟨st, [], [], []⟩

/-- A call of the store's interface. -/
def Sub.run (H : Hashes) (s : Sub) (o : Op) : Option (Sub × Nat) :=
  match o.run H s.store with
  | none => none
  | some (st, i) => some ({ s with store := st }, i)

/-- The loops over types or signatures, with the substituter handed on. -/
def mapS (f : Sub → Nat → Option (Sub × Nat)) : Sub → List Nat → Option (Sub × List Nat)
  | s, [] => some (s, [])
  | s, t :: ts =>
    match f s t with
    | none => none
    | some (s, u) =>
      match mapS f s ts with
      | none => none
      | some (s, us) => some (s, u :: us)

/-- `instantiate.rs` 85–117, 127–136, 141–192: the types inside a kind that `substitute_type`
substitutes in, in the order in which it does; `none` for the other kinds. -/
def args : Kind → Option (List Nat)
  | .union ms => some ms
  | .inter ms => some ms
  | .array t _ => some [t]
  | .tuple es => some (es.map TupleElem.ty)
  | .ref _ as => some as
  | .conditional c e t f _ => some [c, e, t, f]
  | .mapped m => some (m.source :: m.value :: (opt m.nameType ++ opt m.asType))
  | .template _ spans => some (spans.map TemplateChunk.ty)
  | .intrinsic _ t => some [t]
  | .indexed o i => some [o, i]
  | .keyOf t => some [t]
  | _ => none

/-- `instantiate.rs` 85–117, 127–136, 141–192: the kind with the types put back. -/
def put : Kind → List Nat → Kind
  | .union _, ts => .union ts
  | .inter _, ts => .inter ts
  | .array _ r, [t] => .array t r
  | .tuple es, ts => .tuple (List.zipWith (fun e t => { e with ty := t }) es ts)
  | .ref d _, ts => .ref d ts
  | .conditional _ _ _ _ d, [c, e, t, f] => .conditional c e t f d
  | .mapped m, s :: v :: ts =>
    .mapped { m with
      source := s
      value := v
      nameType := (setOpt m.nameType ts).1
      asType := (setOpt m.asType (setOpt m.nameType ts).2).1 }
  | .template h spans, ts => .template h (List.zipWith (fun s t => { s with ty := t }) spans ts)
  | .intrinsic k _, [t] => .intrinsic k t
  | .indexed _ _, [o, i] => .indexed o i
  | .keyOf _, [t] => .keyOf t
  | k, _ => k

variable (H : Hashes) (σ : Nat → Option Nat)

/-- `instantiate.rs` 38–64: `substitute_signature`, where `f` substitutes in a type. The types of a
signature are visited in the same order as by `intern_signature`; the names of the parameters, which
`intern_signature` drops, are dropped here. -/
def substSig (f : Sub → Nat → Option (Sub × Nat)) (s : Sub) (sig : Signature) : Option (Sub × Nat) :=
  let sig' := { sig with typeParams := sig.typeParams.filter fun tp => (σ tp.id).isNone }
  match mapS f s (sigArgs sig') with
  | none => none
  | some (s, ts) => s.run H (.signature (setSigArgs sig' ts))

/-- `instantiate.rs` 67–75: `substitute_signature_id`. -/
def substSigId (f : Sub → Nat → Option (Sub × Nat)) (s : Sub) (i : Nat) : Option (Sub × Nat) :=
  match s.sigs.lookup i with
  | some hit => some (s, hit)
  | none =>
    match s.store.sigs.lookup i with
    | none => none
    | some sig =>
      match substSig H σ f s sig with
      | none => none
      | some (s, j) => some ({ s with sigs := (i, j) :: s.sigs }, j)

/-- `instantiate.rs` 213–219: the properties and index signatures of a shape with the types put back. -/
def putShape (sh : Shape) (ts : List Nat) (call construct : List Nat) : Shape :=
  { properties := List.zipWith (fun p t => (⟨p.key, { p.data with ty := t }⟩ : Property))
      sh.properties (ts.take sh.properties.length)
    callSigs := call
    constructSigs := construct
    indexers := setIndexers sh.indexers (ts.drop sh.properties.length) }

/-- `instantiate.rs` 208–229: `substitute_shape`. -/
def substShape (f : Sub → Nat → Option (Sub × Nat)) (s : Sub) (i : Nat) : Option (Sub × Nat) :=
  match s.shapes.lookup i with
  | some hit => some (s, hit)
  | none =>
    match s.store.shapes.lookup i with
    | none => none
    | some sh =>
      match mapS f s (shapeArgs sh) with
      | none => none
      | some (s, ts) =>
        match mapS (substSigId H σ f) s sh.callSigs with
        | none => none
        | some (s, call) =>
          match mapS (substSigId H σ f) s sh.constructSigs with
          | none => none
          | some (s, construct) =>
            match s.run H (.shape (putShape sh ts call construct)) with
            | none => none
            | some (s, j) => some ({ s with shapes := (i, j) :: s.shapes }, j)

/-- `instantiate.rs` 202–206: `substitute_object`. -/
def substObject (f : Sub → Nat → Option (Sub × Nat)) (s : Sub) (o : Nat) : Option (Sub × Nat) :=
  match s.store.objects.lookup o with
  | none => none
  | some sh =>
    match substShape H σ f s sh with
    | none => none
    | some (s, sh) => s.run H (.object sh)

/-- `instantiate.rs` 83–197: the `match` of `substitute_type`, where `f` substitutes in the types
inside. -/
def substKind (f : Sub → Nat → Option (Sub × Nat)) (s : Sub) (t : Nat) : Option (Sub × Nat) :=
  match s.store.kind? t with
  | none => none
  | some (.typeParam p) => some (s, (σ p).getD t)
  | some (.callable ss) =>
    match mapS (substSigId H σ f) s ss with
    | none => none
    | some (s, ss) => s.run H (.type (.callable ss))
  | some (.object o) =>
    match substObject H σ f s o with
    | none => none
    | some (s, o) => s.run H (.type (.object o))
  | some k =>
    match args k with
    | none => s.run H (.canon t)
    | some ts =>
      match mapS f s ts with
      | none => none
      | some (s, ts) => s.run H (.type (put k ts))

/-- `instantiate.rs` 79–200: `substitute_type`, with a bound on the depth of recursion. -/
def substType : Nat → Sub → Nat → Option (Sub × Nat)
  | 0, _, _ => none
  | n + 1, s, t =>
    match s.types.lookup t with
    | some hit => some (s, hit)
    | none =>
      match substKind H σ (substType n) s t with
      | none => none
      | some (s, u) => some ({ s with types := (t, u) :: s.types }, u)

/-- `instantiate.rs` 289–290: a signature instantiated by a new substituter. -/
def instantiate (n : Nat) (st : Store) (sig : Signature) : Option (Sub × Nat) :=
  substSig H σ (substType H σ n) (.fresh st) sig

end Verif.Subst
