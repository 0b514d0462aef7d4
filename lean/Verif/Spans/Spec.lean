import Verif.Spans.Model

/-!
# What a span index is to answer
-/

namespace Verif.Spans

variable {T : Type}

/-- A span is at an offset: from its start up to, not including, its end; an empty span is at its
start. -/
def Covers (s : Span T) (o : Nat) : Prop :=
  (s.start ≤ o ∧ o < s.stop) ∨ (s.stop ≤ s.start ∧ o = s.start)

/-- `a` is to be preferred to `b`: it is shorter, or starts earlier, or has the smaller id. (The last
clause matters only for spans that end before they start.) -/
def Better [LinearOrder T] (a b : Span T) : Prop :=
  a.stop - a.start < b.stop - b.start ∨
  (a.stop - a.start = b.stop - b.start ∧
    (a.start < b.start ∨
    (a.start = b.start ∧
      (a.id < b.id ∨ (a.id = b.id ∧ a.stop < b.stop)))))

/-- The span to be found at an offset. -/
def Innermost [LinearOrder T] (ss : List (Span T)) (o : Nat) (r : Span T) : Prop :=
  r ∈ ss ∧ Covers r o ∧ ∀ s ∈ ss, Covers s o → ¬ Better s r

/-- What is done to an index before it is used. -/
inductive Op (T : Type) where
  | add (s : Span T)
  | finalize

/-- One such operation: `SpanIndex::add` or `SpanIndex::finalize`. -/
def step [LinearOrder T] (x : Index T) : Op T → Index T
  | .add s => x.add s
  | .finalize => x.finalize

/-- An index after some operations. -/
def run [LinearOrder T] (ops : List (Op T)) : Index T := ops.foldl step {}

/-- The spans that were added. -/
def added (ops : List (Op T)) : List (Span T) :=
  ops.filterMap fun
    | .add s => some s
    | .finalize => none

end Verif.Spans
