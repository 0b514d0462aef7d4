import Verif.Types.Spec
/-!
# What an instance of a type is

The recursive replacement of type parameters, without memo tables.
-/

namespace Verif.Subst
open Verif.Types

/-- Lists of the same length whose entries are related one by one. -/
def Each {A B : Type} (R : A → B → Prop) : List A → List B → Prop
  | [], [] => True
  | a :: as, b :: bs => R a b ∧ Each R as bs
  | _, _ => False

/-- Both absent, or both there and related. -/
def Both (R : Nat → Nat → Prop) : Option Nat → Option Nat → Prop
  | none, none => True
  | some a, some b => R a b
  | _, _ => False

/-- A kind of the same form whose parts are related one by one; nothing else differs. -/
def SameForm (R : Nat → Nat → Prop) : Kind → Kind → Prop
  | .union ms, .union ms' => Each R ms ms'
  | .inter ms, .inter ms' => Each R ms ms'
  | .array t r, .array t' r' => R t t' ∧ r' = r
  | .tuple es, .tuple es' => Each (fun e e' => R e.ty e'.ty ∧ e'.optional = e.optional ∧
      e'.rest = e.rest ∧ e'.readonly = e.readonly) es es'
  | .ref d as, .ref d' as' => d' = d ∧ Each R as as'
  | .conditional c e t f d, .conditional c' e' t' f' d' => R c c' ∧ R e e' ∧ R t t' ∧ R f f' ∧ d' = d
  | .mapped m, .mapped m' => R m.source m'.source ∧ R m.value m'.value ∧ Both R m.nameType m'.nameType ∧
      Both R m.asType m'.asType ∧ m'.param = m.param ∧ m'.readonly = m.readonly ∧ m'.optional = m.optional
  | .template h ss, .template h' ss' => h' = h ∧
      Each (fun s s' => R s.ty s'.ty ∧ s'.literal = s.literal) ss ss'
  | .intrinsic k t, .intrinsic k' t' => k' = k ∧ R t t'
  | .indexed o i, .indexed o' i' => R o o' ∧ R i i'
  | .keyOf t, .keyOf t' => R t t'
  | _, _ => False

/-- The kinds that stay as they are. -/
def Fixed : Kind → Prop
  | .union _ | .inter _ | .array _ _ | .tuple _ | .ref _ _ | .conditional _ _ _ _ _ | .mapped _
  | .template _ _ | .intrinsic _ _ | .indexed _ _ | .keyOf _ | .typeParam _ | .callable _ | .object _ =>
    False
  | _ => True

/-- The same signature with its types related one by one, without the type parameters that `σ` replaces
and without the names of parameters. -/
structure SameSig (σ : Nat → Option Nat) (R : Nat → Nat → Prop) (s s' : Signature) : Prop where
  params : Each (fun a b => R a.ty b.ty ∧ b.name = none ∧ b.optional = a.optional ∧ b.rest = a.rest)
    s.params s'.params
  ret : R s.ret s'.ret
  this : Both R s.thisParam s'.thisParam
  typeParams : Each (fun a b => b.id = a.id ∧ Both R a.constraint b.constraint ∧
    Both R a.default_ b.default_ ∧ b.variance = a.variance ∧ b.const_ = a.const_)
    (s.typeParams.filter fun a => (σ a.id).isNone) s'.typeParams

/-- The same shape with its types related by `R` and its signatures by `Q`, one by one. -/
structure SameShape (R Q : Nat → Nat → Prop) (s s' : Shape) : Prop where
  properties : Each (fun a b => R a.data.ty b.data.ty ∧ b = ⟨a.key, { a.data with ty := b.data.ty }⟩)
    s.properties s'.properties
  indexers : Each (fun a b => R a.keyType b.keyType ∧ R a.valueType b.valueType ∧ b.readonly = a.readonly)
    s.indexers s'.indexers
  call : Each Q s.callSigs s'.callSigs
  construct : Each Q s.constructSigs s'.constructSigs

/-- The store gave out `i` for an operation some time before it became `S`. -/
def Built (H : Hashes) (S : Store) (o : Op) (i : Nat) : Prop :=
  ∃ st st', Reachable H st ∧ o.Known st ∧ o.run H st = some (st', i) ∧ Later H st' S

/-- What is instantiated. -/
inductive Ent where
  | type (t : Nat)
  | sig (s : Nat)
  | shape (s : Nat)

/-- The second argument is an instance of the first under the mapping `σ`. -/
inductive Inst (H : Hashes) (σ : Nat → Option Nat) (S : Store) : Ent → Nat → Prop where
  | arg {t q u : Nat} : S.kind? t = some (.typeParam q) → σ q = some u → Inst H σ S (.type t) u
  | free {t q : Nat} : S.kind? t = some (.typeParam q) → σ q = none → Inst H σ S (.type t) t
  | fixed {t : Nat} {k : Kind} : S.kind? t = some k → Fixed k → Inst H σ S (.type t) t
  | parts {t u : Nat} {k k' : Kind} {R : Nat → Nat → Prop} : S.kind? t = some k →
      (∀ a b, R a b → Inst H σ S (.type a) b) → SameForm R k k' → Built H S (.type k') u →
      Inst H σ S (.type t) u
  | callable {t u : Nat} {ss ss' : List Nat} {Q : Nat → Nat → Prop} : S.kind? t = some (.callable ss) →
      (∀ a b, Q a b → Inst H σ S (.sig a) b) → Each Q ss ss' → Built H S (.type (.callable ss')) u →
      Inst H σ S (.type t) u
  | object {t u o o' i j : Nat} : S.kind? t = some (.object o) → S.objects.lookup o = some i →
      Inst H σ S (.shape i) j → Built H S (.object j) o' → Built H S (.type (.object o')) u →
      Inst H σ S (.type t) u
  | shape {i j : Nat} {s s' : Shape} {R Q : Nat → Nat → Prop} : S.shapes.lookup i = some s →
      (∀ a b, R a b → Inst H σ S (.type a) b) → (∀ a b, Q a b → Inst H σ S (.sig a) b) →
      SameShape R Q s s' → Built H S (.shape s') j → Inst H σ S (.shape i) j
  | sig {i j : Nat} {s s' : Signature} {R : Nat → Nat → Prop} : S.sigs.lookup i = some s →
      (∀ a b, R a b → Inst H σ S (.type a) b) → SameSig σ R s s' → Built H S (.signature s') j →
      Inst H σ S (.sig i) j

end Verif.Subst
