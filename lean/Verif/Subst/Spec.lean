import Verif.Types.Spec
/-!
# Where a type parameter occurs
-/

namespace Verif.Subst
open Verif.Types

/-- A type names another directly: as a part, in one of its signatures or in one of its members. -/
inductive Mentions (st : Store) : Nat → Nat → Prop where
  | part {t u : Nat} {k : Kind} : st.kind? t = some k → u ∈ kindTypes k → Mentions st t u
  | overload {t u s : Nat} {ss : List Nat} {sig : Signature} : st.kind? t = some (.callable ss) → s ∈ ss →
      st.sigs.lookup s = some sig → u ∈ sigTypes sig → Mentions st t u
  | member {t u o i : Nat} {sh : Shape} : st.kind? t = some (.object o) → st.objects.lookup o = some i →
      st.shapes.lookup i = some sh → u ∈ shapeTypes sh → Mentions st t u
  | signature {t u o i s : Nat} {sh : Shape} {sig : Signature} : st.kind? t = some (.object o) →
      st.objects.lookup o = some i → st.shapes.lookup i = some sh → s ∈ shapeSigs sh →
      st.sigs.lookup s = some sig → u ∈ sigTypes sig → Mentions st t u

/-- A type is somewhere in another. -/
inductive Inside (st : Store) : Nat → Nat → Prop where
  | self (t : Nat) : Inside st t t
  | step {t u v : Nat} : Mentions st t u → Inside st u v → Inside st t v

/-- The type parameter `p` is used somewhere in the type `t`. -/
def Occurs (st : Store) (p t : Nat) : Prop := ∃ u, Inside st t u ∧ st.kind? u = some (.typeParam p)

/-- The type parameter `p` is used somewhere in the signature `s`. -/
def OccursSig (st : Store) (p : Nat) (sig : Signature) : Prop := ∃ u ∈ sigTypes sig, Occurs st p u

/-- The kinds that substitution does not look into: type predicates and `infer`. -/
def Opaque : Kind → Prop
  | .predicate _ _ _ | .infer _ _ => True
  | _ => False

/-- `p` is used within a type predicate or the constraint of an `infer` somewhere in `t`. -/
def Hidden (st : Store) (p t : Nat) : Prop :=
  ∃ u k, Inside st t u ∧ st.kind? u = some k ∧ Opaque k ∧ Occurs st p u

end Verif.Subst
