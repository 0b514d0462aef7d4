import Verif.Relate.Spec

/-!
# Types as sets of values, for the simple types (C83)
-/

namespace Verif.Relate

/-- Values; `obj` is some object. Numbers and names are coded as in the model. -/
inductive Val where
  | undef | null
  | bool (b : Bool) | num (n : Nat) | str (n : Nat) | big (n : Int) | sym (n : Nat)
  | obj
  deriving DecidableEq

/-- The values of a simple type. There is one kind of unique symbol in the store; it stands for one
symbol. -/
def Has : Val → Kind → Prop
  | _, .unknown => True
  | .undef, .undef => True
  | .undef, .void => True
  | .null, .null => True
  | .bool _, .boolean => True
  | .bool a, .boolLit b => a = b
  | .num _, .number => True
  | .num a, .numLit b => a = b
  | .str _, .string => True
  | .str a, .strLit b => a = b
  | .big _, .bigint => True
  | .big a, .bigLit b => a = b
  | .sym _, .symbol => True
  | .sym a, .uniqueSymbol => a = 0
  | v, .emptyObject => v ≠ .undef ∧ v ≠ .null
  | _, _ => False

/-- The simple types: never, unknown, void, null, undefined, the primitive types, their literals and
the type `{}`. -/
def Simple : Kind → Bool
  | .never | .unknown | .void | .null | .undef => true
  | .boolean | .number | .string | .bigint | .symbol | .uniqueSymbol => true
  | .boolLit _ | .numLit _ | .strLit _ | .bigLit _ => true
  | .emptyObject => true
  | _ => false

/-- A type in normal form: nothing to evaluate, and no reference that can be expanded. -/
def Normal (S : Store) (t : Id) : Prop :=
  S.normalize t = t ∧ ∀ d as, S.kind t = .ref d as → S.expand d as = none

end Verif.Relate
