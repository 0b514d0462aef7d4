import Verif.Relate.Model

/-!
# What the relation engine is to answer

The rules for a pair of types refer to further pairs. `Related` is the largest relation that agrees
with the rules: the pairs for which no amount of unfolding the rules finds a conflict. It knows
nothing of caches, of what was asked before, of assumptions or of limits.
-/

namespace Verif.Relate

/-- A goal holds if its questions are answered by `R`. -/
def Holds (R : Id → Id → Mode → Prop) : Goal → Prop
  | .yes => True
  | .no => False
  | .ask _ a b m => R a b m
  | .and g h => Holds R g ∧ Holds R h
  | .or g h => Holds R g ∨ Holds R h

/-- `a` is assignable to `b`: some relation that agrees with the rules contains the pair. -/
def Related (C : Ctx) (a b : Id) (m : Mode) : Prop :=
  ∃ R : Id → Id → Mode → Prop, (∀ x y n, R x y n → Holds R (rules C x y n)) ∧ R a b m

/-- What the answer yes to an operation means. Type parameters are comparable only to themselves. -/
def Means (C : Ctx) : Op → Prop
  | .assignable a b => Related C a b {}
  | .assignableRaw a b => Related C a b { skip := true }
  | .comparable a b =>
    match isParam (C.store.kind a), isParam (C.store.kind b) with
    | none, none => Related C a b {} ∧ Related C b a {}
    | some p, some q => p = q
    | _, _ => False
  | .strictSubtype a b => Related C a b {} ∧ ¬ Related C b a {}
  | .clear => True

/-- The questions in a goal. -/
def Goal.questions : Goal → List (Nat × Id × Id × Mode)
  | .yes => []
  | .no => []
  | .ask i a b m => [(i, a, b, m)]
  | .and g h => g.questions ++ h.questions
  | .or g h => g.questions ++ h.questions

/-- Unfolding the rules for `a` and `b` ends everywhere within `n` levels: the types do not refer
back to themselves and are not nested too deeply. -/
inductive Within (C : Ctx) : Nat → Id → Id → Mode → Prop where
  | mk {n a b m}
      (enough : ∀ i x y k, (i, x, y, k) ∈ (rules C a b m).questions → i ≤ n)
      (below : ∀ i x y k, (i, x, y, k) ∈ (rules C a b m).questions → Within C (n - i) x y k) :
      Within C (n + 1) a b m

/-- The types of an operation are within the depth limit of the context. -/
def Small (C : Ctx) : Op → Prop
  | .assignable a b => Within C C.limits.depth a b {}
  | .assignableRaw a b => Within C C.limits.depth a b { skip := true }
  | .comparable a b =>
    Within C (C.limits.depth - 1) a b {} ∧ Within C (C.limits.depth - 1) b a {}
  | .strictSubtype a b =>
    Within C (C.limits.depth - 1) a b {} ∧ Within C (C.limits.depth - 1) b a {}
  | .clear => True

end Verif.Relate
