import Verif.Relate.Engine

/-!
# C82: answers of the relation engine do not depend on what was asked before

The full property: whatever was asked before and whatever the limits, a question is answered yes
exactly if it holds by the rules (`Means`). This is false of the code: answers found under an
assumption (a pair in progress is taken to be related, and so is one beyond a limit) are stored in
the cache and stay there when the assumption turns out to be wrong (`C82_history_violated`,
`C82_depth_violated`, `C82_first_violated`).

`C82_partial` is what remains: a question that holds is never answered no, whatever the types, the
limits, the cache and the earlier questions; and the answers are exact, and so independent of the
earlier questions, as long as all questions are about types that do not refer back to themselves and
are not nested beyond the depth limit.
-/

namespace Verif.Relate

/-- C82, the part that holds. -/
theorem C82_partial (C : Ctx) (before : List Op) (op : Op) :
    ((∀ a b, op ≠ .strictSubtype a b) → Means C op → answer C before op = true) ∧
    (C.limits.steps = none → C.limits.depth ≤ C.limits.inProgress →
      (∀ o ∈ before, Small C o) → Small C op →
        (answer C before op = true ↔ Means C op)) := by
  constructor
  · intro hs hm
    cases hk : op.key with
    | none => simp [answer, perform, hk]
    | some k =>
      have hk' : k.kind ≠ .strictSubtype := by
        cases op <;> cases hk <;> simp_all
      have := (relate_no C.limits.depth C.limits.depth k
        { after C before with
          steps := if C.limits.steps.isSome then 0 else (after C before).steps }
        (after_no before)).2 hk'
      simp only [answer, perform, hk]
      cases hr : (relate C C.limits.depth C.limits.depth k
        { after C before with
          steps := if C.limits.steps.isSome then 0 else (after C before).steps }).1 with
      | true => rfl
      | false => exact absurd ((means_key hk).1 hm) (this hr)
  · intro hn hr hb ho
    exact (perform_exact hn hr op _ ho (after_exact hn hr before hb)).2

/-- Small questions have the same answer at any time. -/
theorem C82_history_partial (C : Ctx) (hsteps : C.limits.steps = none)
    (hroom : C.limits.depth ≤ C.limits.inProgress) (before before' : List Op) (op : Op)
    (hb : ∀ o ∈ before, Small C o) (hb' : ∀ o ∈ before', Small C o) (ho : Small C op) :
    answer C before op = answer C before' op := by
  have h := ((C82_partial C before op).2 hsteps hroom hb ho).trans
    ((C82_partial C before' op).2 hsteps hroom hb' ho).symm
  cases h1 : answer C before op <;> cases h2 : answer C before' op <;> simp_all

/-! ## The types used below

```ts
type A  = { x: B,  y: number };   type B  = { a: A };
type A2 = { x: B2, y: string };   type B2 = { a: A2 };
```

References are normalized to the object types with the evaluator's caches as the first question
below leaves them: `A` to `{ x: { a: A }, y: number }`, `B` to `{ a: A }`. -/

def prop (k : Nat) (t : Id) : Property := { key := .str k, ty := t }

def shape (ps : List Property) : Kind := .object { properties := ps }

/-- `A`, `B`, `A2`, `B2` are 10 to 13, what they normalize to 20 to 23; 40 is `{ q: A, r: B }`, 41
the union of 42, `{ q: A2 }`, and 43, `{ r: B2 }`; 51 is the type `{ v: 1, n: 51 }`, 52 the type
`{ v: number, n: 52 }`; 100 + n and 200 + n are number and string, n times made an array; 60 is an
object with a required and an optional property, 61 one with a union for the first, 63 one that
lacks it. -/
def exampleKind : Id → Kind
  | 0 => .any
  | 1 => .number
  | 2 => .string
  | 3 => .numLit 7
  | 4 => .union [1, 2]
  | 5 => .param 0
  | 10 => .ref 0 [] | 11 => .ref 1 [] | 12 => .ref 2 [] | 13 => .ref 3 []
  | 20 => shape [prop 0 21, prop 1 1]
  | 21 => shape [prop 2 10]
  | 22 => shape [prop 0 23, prop 1 2]
  | 23 => shape [prop 2 12]
  | 40 => shape [prop 3 10, prop 4 11]
  | 41 => .union [42, 43]
  | 42 => shape [prop 3 12]
  | 43 => shape [prop 4 13]
  | 51 => shape [prop 5 3, prop 6 53]
  | 52 => shape [prop 5 1, prop 6 54]
  | 53 => .ref 4 [] | 54 => .ref 5 []
  | 60 => shape [prop 0 3, { key := .str 1, ty := 2, optional := true }]
  | 61 => shape [prop 0 4]
  | 63 => shape [prop 1 2]
  | n =>
    if n = 100 then .number
    else if n = 200 then .string
    else if 100 < n && n < 300 then .array (n - 1) false
    else .other

def exampleStore : Store where
  kind := exampleKind
  normalize
    | 10 => 20 | 11 => 21 | 12 => 22 | 13 => 23
    | 53 => 51 | 54 => 52
    | n => n
  expand
    | 4, _ => some 51
    | 5, _ => some 52
    | _, _ => none
  numberId := 1

/-- A context with the limits of the code and a cache that drops nothing. -/
def example₀ : Ctx := { store := exampleStore }

/-- Whether `B` is assignable to `B2` depends on whether it was asked before if `A` is assignable to
`A2`: no on a fresh cache, yes after that question. -/
theorem C82_history_violated :
    answer example₀ [] (.assignable 21 23) = false ∧
    answer example₀ [.assignable 10 12] (.assignable 21 23) = true := by
  decide +kernel

/-- `B` is not assignable to `B2` by the rules. -/
theorem not_related_B : ¬ Related example₀ 21 23 {} := fun h =>
  absurd ((C82_partial example₀ [] (.assignable 21 23)).1 (by simp) h)
    (by rw [C82_history_violated.1]; simp)

theorem not_related_A : ¬ Related example₀ 10 12 {} := fun h =>
  absurd ((C82_partial example₀ [] (.assignable 10 12)).1 (by simp) h) (by decide +kernel)

/-- The same with the depth limit: number[] and string[], 10 levels deep, are not related, but they
are after a question about types 40 levels deep. -/
theorem C82_depth_violated :
    answer example₀ [] (.assignable 110 210) = false ∧
    answer example₀ [.assignable 140 240] (.assignable 110 210) = true := by
  decide +kernel

/-- One question is enough: `{ q: A, r: B }` is answered to be assignable to
`{ q: A2 } | { r: B2 }` by a new context, though it is not by the rules. -/
theorem C82_first_violated :
    answer example₀ [] (.assignable 40 41) = true ∧ ¬ Means example₀ (.assignable 40 41) := by
  refine ⟨by decide +kernel, fun h => ?_⟩
  have h1 : Related example₀ 40 42 {} ∨ Related example₀ 40 43 {} ∨ False := (Related.holds h).2
  rcases h1 with h | h | h
  · exact not_related_A (Related.holds h).2.1.1
  · have h2 : Related example₀ 11 13 {} := (Related.holds h).2.1.1
    have h3 : Related example₀ 21 23 {} := (Related.holds h2).2
    exact not_related_B h3
  · exact h

/-! ## The hypotheses are met -/

/-- Checking `Within` by unfolding. -/
def within (C : Ctx) : Nat → Nat → Id → Id → Mode → Bool
  | 0, _, _, _, _ => false
  | _, 0, _, _, _ => false
  | f + 1, n + 1, a, b, m =>
    (rules C a b m).questions.all fun (i, x, y, k) => i ≤ n && within C f (n - i) x y k

theorem within_sound (C : Ctx) : ∀ (f n : Nat) (a b : Id) (m : Mode),
    within C f n a b m = true → Within C n a b m
  | 0, _, _, _, _, h => by simp [within] at h
  | f + 1, 0, _, _, _, h => by simp [within] at h
  | f + 1, n + 1, a, b, m, h => by
    simp only [within, List.all_eq_true, Bool.and_eq_true, decide_eq_true_eq] at h
    exact .mk (fun i x y k hq => (h _ hq).1)
      (fun i x y k hq => within_sound C f (n - i) x y k (h _ hq).2)

/-- The recursive type `{ v: 1, n: ... }` is assignable to `{ v: number, n: ... }`. -/
theorem example_recursive : Related example₀ 51 52 {} := by
  refine ⟨fun x y n => n = {} ∧ ((x = 51 ∧ y = 52) ∨ (x = 53 ∧ y = 54) ∨ (x = 3 ∧ y = 1)), ?_, ?_⟩
  · rintro x y n ⟨rfl, ⟨rfl, rfl⟩ | ⟨rfl, rfl⟩ | ⟨rfl, rfl⟩⟩
    · show _ ∧ _
      simp [Goal.all, rules, assignable, byVariance, example₀, exampleStore, exampleKind, Holds,
        special, expanded, composite, structural, object, shape, prop, property, findProperty,
        privateCompatible, optProp, callable]
    · simp [Goal.all, rules, assignable, byVariance, example₀, exampleStore, exampleKind, Holds]
    · simp [Goal.all, rules, assignable, byVariance, example₀, exampleStore, exampleKind, Holds,
        special, Goal.ofBool]
  · simp

/-- A question about recursive types that holds, asked after the one that spoils the cache. -/
example : answer example₀ [.assignable 10 12, .comparable 40 41] (.assignable 51 52) = true :=
  (C82_partial example₀ _ (.assignable 51 52)).1 (by simp) example_recursive

/-- The same with a step limit of 3, a depth limit of 5 and a cache that drops every other entry. -/
example : answer { example₀ with
      limits := { steps := some 3, depth := 5 }, evict := fun n _ => n % 2 = 0 }
    [.assignable 10 12] (.assignable 51 52) = true :=
  (C82_partial _ _ (.assignable 51 52)).1 (by simp) example_recursive

/-- Small questions: an object type is a strict subtype of another, and lacks a property of a third. -/
example : Small example₀ (.strictSubtype 60 61) ∧ Small example₀ (.assignable 63 61) ∧
    Small example₀ (.comparable 110 210) ∧
    answer example₀ [.assignable 63 61, .comparable 110 210] (.strictSubtype 60 61) = true ∧
    answer example₀ [.strictSubtype 60 61] (.assignable 63 61) = false := by
  refine ⟨⟨within_sound _ 64 _ _ _ _ (by decide +kernel), within_sound _ 64 _ _ _ _ (by decide +kernel)⟩,
    within_sound _ 64 _ _ _ _ (by decide +kernel),
    ⟨within_sound _ 64 _ _ _ _ (by decide +kernel), within_sound _ 64 _ _ _ _ (by decide +kernel)⟩,
    by decide +kernel, by decide +kernel⟩

end Verif.Relate
