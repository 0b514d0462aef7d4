import Verif.Graph.Spec
/-!
# Dominance by its definition: all walks from the entry
-/

namespace Verif.Dom

open Verif.Graph

/-- `d` dominates `n`: every walk from the entry to `n` visits `d`. -/
def Dominates (E : Nat → Nat → Prop) (entry d n : Nat) : Prop :=
  ∀ l, Walk E entry l n → d ∈ l

/-- `d` strictly dominates `n`. -/
def SDominates (E : Nat → Nat → Prop) (entry d n : Nat) : Prop :=
  Dominates E entry d n ∧ d ≠ n

/-- `d` is the immediate dominator of `n`: it strictly dominates `n`, and every strict dominator of `n`
dominates `d`. -/
def IsIdom (E : Nat → Nat → Prop) (entry d n : Nat) : Prop :=
  SDominates E entry d n ∧ ∀ x, SDominates E entry x n → Dominates E entry x d

/-- `b` is in the dominance frontier of `a`: `a` dominates a predecessor of `b` but does not strictly
dominate `b`. -/
def InFrontier (E : Nat → Nat → Prop) (entry a b : Nat) : Prop :=
  (∃ p, E p b ∧ Dominates E entry a p) ∧ ¬ SDominates E entry a b

/-- `n` is in the natural loop of the back edge `t → h` (an edge whose target dominates its source): it
is the header, or it can reach `t` by a walk that does not visit the header. -/
def InNaturalLoop (E : Nat → Nat → Prop) (entry h n : Nat) : Prop :=
  ∃ t, Reach E entry t ∧ E t h ∧ Dominates E entry h t ∧
    (n = h ∨ (Reach E entry n ∧ ∃ l, Walk E n l t ∧ h ∉ l))

end Verif.Dom
