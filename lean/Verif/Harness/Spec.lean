import Verif.Harness.Model
/-!
# What users of diagnostics, shards, manifests and locations rely on
-/

namespace Verif.Harness

/-- A comparison function behaves like the comparison of a total preorder: swapping the arguments
swaps the answer, and both "not after" and "equal" are transitive. -/
structure TotalPreorder {α : Type} (cmp : α → α → Ordering) : Prop where
  swap : ∀ a b, cmp b a = (cmp a b).swap
  trans : ∀ a b c, cmp a b ≠ .gt → cmp b c ≠ .gt → cmp a c ≠ .gt

/-- Two diagnostics say the same thing: they differ at most in the order of labels and of notes. -/
def SameDiagnostic (a b : Diagnostic) : Prop :=
  a.code = b.code ∧ a.severity = b.severity ∧ a.message = b.message ∧ a.primary = b.primary ∧
    a.labels.Perm b.labels ∧ a.notes.Perm b.notes

/-- Two lists have the same length and related elements at each position. -/
inductive AllPairs {α : Type} (r : α → α → Prop) : List α → List α → Prop where
  | nil : AllPairs r [] []
  | cons {a b : α} {as bs : List α} : r a b → AllPairs r as bs → AllPairs r (a :: as) (b :: bs)

/-- A numeral: at least one decimal digit. -/
def IsNumeral (s : Str) : Prop := s ≠ [] ∧ ∀ c ∈ s, 48 ≤ c ∧ c ≤ 57

/-- The value of a numeral, most significant digit first. -/
def numeralValue (s : Str) : Nat := s.foldl (fun n c => n * 10 + (c - 48)) 0

/-- What Rust's `usize` parser accepts: a numeral, possibly after a `+`, whose value fits. -/
def Denotes (s : Str) (n : Nat) : Prop :=
  ∃ d, (s = d ∨ s = 43 :: d) ∧ IsNumeral d ∧ numeralValue d = n ∧ n < 2 ^ 64

/-- A manifest entry that is accepted, with what it means: exactly one of `id`, `glob` and `regex` is
given, a pattern compiles, and there is a status. -/
inductive Accepts (P : Patterns) : RawEntry → Matcher → Kind → Prop where
  | exact {e : RawEntry} {p : Str} {k : Kind} : e.id = some p → e.glob = none → e.regex = none →
      e.status = some k → Accepts P e (.exact p) k
  | glob {e : RawEntry} {p : Str} {k : Kind} : e.id = none → e.glob = some p → e.regex = none →
      P.globOk p = true → e.status = some k → Accepts P e (.glob p) k
  | regex {e : RawEntry} {p : Str} {k : Kind} : e.id = none → e.glob = none → e.regex = some p →
      P.regexOk p = true → e.status = some k → Accepts P e (.regex p) k

/-- A manifest entry applies to a test, with the given rank: 0 for an exact id, 1 for a glob, 2 for a
regular expression. -/
inductive AppliesAt (P : Patterns) (e : RawEntry) (id : Str) : Nat → Prop where
  | exact : e.id = some id → AppliesAt P e id 0
  | glob {p : Str} : e.glob = some p → P.globMatch p id = true → AppliesAt P e id 1
  | regex {p : Str} : e.regex = some p → P.regexMatch p id = true → AppliesAt P e id 2

/-- Entry number `i` decides the expectation of a test: it applies, no entry of a better rank applies,
and no earlier entry of the same rank applies. -/
def Decides (P : Patterns) (es : List RawEntry) (id : Str) (i : Nat) (e : RawEntry) : Prop :=
  es[i]? = some e ∧ ∃ r, AppliesAt P e id r ∧
    ∀ j f s, es[j]? = some f → AppliesAt P f id s → r < s ∨ (r = s ∧ i ≤ j)

/-- A location covers another. -/
def Loc.Covers (a b : Loc) : Prop := a.start ≤ b.start ∧ b.stop ≤ a.stop

end Verif.Harness
