import Verif.Relate.Values
import Verif.Relate.LawTheorems

/-!
# C84: a value of a type is a value of the types it is assignable to

The full property: if a type is answered to be assignable to another then every value of the first
is a value of the second. TypeScript gives it up in some places by design (any, functions, optional
properties that the source does not mention, index signatures for object types that have none);
the code gives it up in more (`C84_tuple_violated`, `C84_index_violated`, `C84_array_violated`,
`C84_empty_violated`).

`C84_partial` is the property for types without functions and type parameters, as long as no pair of
these kinds is met on the way (`Fair`) and under strict null checks, for questions within the depth
limit, whatever was asked before.
-/

namespace Verif.Relate

/-- C84, the part that holds. -/
theorem C84_partial (C : Ctx) (W : Faithful C) (hnull : C.opts.strictNull = true)
    (hindex : C.opts.uncheckedIndex = false) (hsteps : C.limits.steps = none)
    (hroom : C.limits.depth ≤ C.limits.inProgress) (before : List Op) (a b : Id)
    (hb : ∀ o ∈ before, Small C o) (ho : Small C (.assignable a b))
    (hfair : ∀ x y k, Reached C a b {} x y k → Fair C x y)
    (hyes : answer C before (.assignable a b) = true) :
    ∀ v, Mem C v a → Mem C v b :=
  related_sound W hindex hnull (n := C.limits.depth) ho hfair
    (((C82_partial C before (.assignable a b)).2 hsteps hroom hb ho).1 hyes)

/-! ## A context -/

/-- 1 number, 2 string, 3 the number 7, 4 undefined, 5 null, 6 `{}`;
10 `[string, number]`, 11 `[string?]`, 12 `[string, number?]`, 13 `[string]`;
20 `{ [k: string]: number }`, 21 `{ p: number }`;
30 `number[]`, 31 `{ p: string, [n: number]: number }`, 33 `string | null`;
40 `{ p: 7, q?: string[], r: [7, string] }`, 41 `{ p: number } & { q?: string[] }`,
42 `{ q?: string[] }`, 43 `string[]`, 44 `[7, string]`, 45 `(number | string)[]`,
46 `number | string`, 47 `{ p: number, r: (number | string)[] } | null`, 48 its first member,
49 an alias of 47, 50 `{ q?: string }`; the union of a type t and undefined is 100 + t. -/
def valueKind : Id → Kind
  | 1 => .number | 2 => .string | 3 => .numLit 7 | 4 => .undef | 5 => .null | 6 => .emptyObject
  | 10 => .tuple [{ ty := 2 }, { ty := 1 }]
  | 11 => .tuple [{ ty := 2, optional := true }]
  | 12 => .tuple [{ ty := 2 }, { ty := 1, optional := true }]
  | 13 => .tuple [{ ty := 2 }]
  | 20 => .object { indexers := [{ keyType := 2, valueType := 1 }] }
  | 21 => shape [prop 0 1]
  | 30 => .array 1 false
  | 31 => .object { properties := [prop 0 2], indexers := [{ keyType := 1, valueType := 1 }] }
  | 33 => .union [2, 5]
  | 40 => shape [prop 0 3, { key := .str 1, ty := 43, optional := true }, prop 2 44]
  | 41 => .inter [21, 42]
  | 42 => shape [{ key := .str 1, ty := 43, optional := true }]
  | 43 => .array 2 false
  | 44 => .tuple [{ ty := 3 }, { ty := 2 }]
  | 45 => .array 46 false
  | 46 => .union [1, 2]
  | 47 => .union [48, 5]
  | 48 => shape [prop 0 1, prop 2 45]
  | 49 => .ref 0 []
  | 50 => shape [{ key := .str 1, ty := 2, optional := true }]
  | n => if 100 ≤ n then .union [n - 100, 4] else .other

def valueExample : Ctx :=
  { store :=
      { kind := valueKind, orUndefined := fun t => 100 + t,
        expand := fun _ _ => some 47, numberId := 1 } }

theorem undefined_mem {v : V} (h : Mem valueExample v 4) : v = .undef := by
  have := mem_simple h rfl
  cases v <;> first | rfl | simp [valueExample, valueKind, V.head, Has] at this

theorem valueFaithful : Faithful valueExample where
  normalize _ _ := Iff.rfl
  orUndefined v t := by
    have hk : valueExample.store.kind (100 + t) = .union [t, 4] := by
      show valueKind (100 + t) = _
      unfold valueKind
      split
      all_goals first
        | (rename_i h; exact absurd (show (100 + (t : Nat) : Nat) = _ from h) (by omega))
        | simp
    constructor
    · intro h
      obtain ⟨m, hm, h⟩ := mem_union h hk
      simp only [List.mem_cons, List.not_mem_nil, or_false] at hm
      rcases hm with e | e
      · rw [e] at h; exact .inl h
      · rw [e] at h; exact .inr (undefined_mem h)
    · rintro (h | rfl)
      · exact .union hk (by simp) h
      · exact .union hk (m := 4) (by simp) (.simple trivial)
  intern _ _ _ h h' := ⟨h, h'⟩
  internElements _ h := ⟨h, fun _ h => h⟩
  templates _ _ _ h := by simp [valueExample] at h

/-! ## Where the property fails -/

/-- A pair of strings and numbers is assignable to a tuple of at most one element, and a tuple of one
or two elements to one of exactly one. -/
theorem C84_tuple_violated :
    answer valueExample [] (.assignable 10 11) = true ∧
    answer valueExample [] (.assignable 12 13) = true ∧
    ∃ v, Mem valueExample v 10 ∧ Mem valueExample v 12 ∧
      ¬ Mem valueExample v 11 ∧ ¬ Mem valueExample v 13 := by
  refine ⟨by decide +kernel, by decide +kernel, .arr [.str 0, .num 0], ?_, ?_, ?_, ?_⟩
  · refine .tuple (es := [{ ty := 2 }, { ty := 1 }]) rfl (by simp) (by simp) ?_ ?_
    · intro i e h _
      simpa using (List.getElem?_eq_some_iff.1 h).1
    · intro i e x h hx _
      rcases i with _ | _ | i
      · simp at h hx; subst h; subst hx; exact .simple trivial
      · simp at h hx; subst h; subst hx; exact .simple trivial
      · simp at h
  · refine .tuple (es := [{ ty := 2 }, { ty := 1, optional := true }]) rfl (by simp) (by simp) ?_ ?_
    · intro i e h _
      simpa using (List.getElem?_eq_some_iff.1 h).1
    · intro i e x h hx _
      rcases i with _ | _ | i
      · simp at h hx; subst h; subst hx; exact .simple trivial
      · simp at h hx; subst h; subst hx; exact .simple trivial
      · simp at h
  · intro h
    obtain ⟨xs, e, hl, _⟩ := mem_tuple h rfl
    cases e
    simp at hl
  · intro h
    obtain ⟨xs, e, hl, _⟩ := mem_tuple h rfl
    cases e
    simp at hl

/-- A type with an index signature is assignable to one with a required property; the empty object is
a value of the first, not of the second. -/
theorem C84_index_violated :
    answer valueExample [] (.assignable 20 21) = true ∧
    ∃ v, Mem valueExample v 20 ∧ ¬ Mem valueExample v 21 := by
  refine ⟨by decide +kernel, .obj (fun _ => false) (fun _ => .undef), ?_, ?_⟩
  · exact .object (s := { indexers := [{ keyType := 2, valueType := 1 }] }) rfl
      (fun _ _ _ => ⟨rfl, rfl⟩) (by simp) (by simp) (by simp)
  · intro h
    rcases mem_object h rfl with ⟨_, _, e, _, hp, _⟩ | ⟨_, e, _⟩
    · cases e
      have := (hp (prop 0 1) (by simp [prop])).1 rfl
      simp at this
    · cases e

/-- An array of numbers is assignable to an object type with a string property as long as that has an
index signature for its elements. -/
theorem C84_array_violated :
    answer valueExample [] (.assignable 30 31) = true ∧
    ∃ v, Mem valueExample v 30 ∧ ¬ Mem valueExample v 31 := by
  refine ⟨by decide +kernel, .arr [], .array (e := 1) (r := false) rfl (by simp), ?_⟩
  intro h
  rcases mem_object h rfl with ⟨_, _, e, _⟩ | ⟨_, _, e, _⟩
  · cases e
  · simp at e

/-- A string or null is assignable to `{}`, whose values are all but null and undefined. -/
theorem C84_empty_violated :
    answer valueExample [] (.assignable 33 6) = true ∧
    ∃ v, Mem valueExample v 33 ∧ ¬ Mem valueExample v 6 := by
  refine ⟨by decide +kernel, .null, .union (m := 5) rfl (by simp) (.simple trivial), ?_⟩
  intro h
  have := mem_simple h rfl
  simp [valueExample, valueKind, V.head, Has] at this

/-! ## The hypotheses are met -/

/-- Checking `FairShapes`. -/
def fairShapes (C : Ctx) (s d : Shape) : Bool :=
  (d.properties.all fun p => (findProperty C.store s p.key).isSome ||
    (!p.optional && (indexerFor C.store C.limits.keyDepth s p.key).isNone)) &&
  d.indexers.all fun i => (matchingIndexer C.store C.limits.keyDepth s i).isSome ||
    !s.indexers.isEmpty

theorem fairShapes_sound {C : Ctx} {s d : Shape} (h : fairShapes C s d = true) :
    FairShapes C s d := by
  simp only [fairShapes, Bool.and_eq_true, List.all_eq_true, Bool.or_eq_true] at h
  constructor
  · intro p hp hn
    have := h.1 p hp
    simpa [hn] using this
  · intro i hi hn
    have := h.2 i hi
    simpa [hn] using this

/-- Checking `Fair`. -/
def fair (C : Ctx) (a b : Id) : Bool :=
  Readable (C.store.kind a) && Readable (C.store.kind b) &&
  match C.store.kind a, C.store.kind b with
  | .union _, .emptyObject => false
  | .inter _, .emptyObject => false
  | .ref _ _, .emptyObject => false
  | .ref d _, .ref _ _ => (C.store.variance d).isNone
  | .tuple s, .tuple d => s.length ≤ d.length
  | .array _ _, .object d => d.properties.isEmpty && d.indexers.length ≤ 1
  | .object s, .object d => fairShapes C s d
  | .inter ms, .object d => !ms.isEmpty &&
    match merge C.store ms with
    | some s => fairShapes C (C.store.intern s) d
    | none => true
  | _, _ => true

theorem fair_sound {C : Ctx} {a b : Id} (h : fair C a b = true) : Fair C a b := by
  unfold fair at h
  rw [Bool.and_eq_true, Bool.and_eq_true] at h
  refine ⟨h.1.1, h.1.2, ?_⟩
  have h := h.2
  revert h
  generalize C.store.kind a = ka
  generalize C.store.kind b = kb
  split <;> intro h
  · cases h
  · cases h
  · cases h
  · simpa using h
  · simpa using h
  · simpa using h
  · exact fairShapes_sound h
  · rename_i ms d _ _
    rw [Bool.and_eq_true] at h
    refine ⟨by simpa using h.1, fun s hs => ?_⟩
    rw [hs] at h
    exact fairShapes_sound h.2
  · split <;> try simp_all
    rename_i H
    exact (H _ _ _ _ rfl rfl rfl rfl).elim

/-- Checking all pairs that are met. -/
def allFair (C : Ctx) : Nat → Id → Id → Mode → Bool
  | 0, _, _, _ => false
  | f + 1, a, b, m =>
    fair C a b && (rules C a b m).questions.all fun (_, x, y, k) => allFair C f x y k

theorem allFair_sound (C : Ctx) {a b : Id} {m : Mode} {x y : Id} {k : Mode}
    (h : Reached C a b m x y k) : ∀ f, allFair C f a b m = true → ∃ g, allFair C (g + 1) x y k = true := by
  induction h with
  | refl =>
    intro f hf
    cases f with
    | zero => simp [allFair] at hf
    | succ g => exact ⟨g, hf⟩
  | step _ hq ih =>
    intro f hf
    obtain ⟨g, hg⟩ := ih f hf
    rw [allFair, Bool.and_eq_true, List.all_eq_true] at hg
    have := hg.2 _ hq
    cases g with
    | zero => simp [allFair] at this
    | succ g => exact ⟨g, this⟩

theorem allFair_fair (C : Ctx) {a b : Id} {m : Mode} {f : Nat} (h : allFair C f a b m = true)
    (x y : Id) (k : Mode) (hr : Reached C a b m x y k) : Fair C x y := by
  obtain ⟨g, hg⟩ := allFair_sound C hr f h
  rw [allFair, Bool.and_eq_true] at hg
  exact fair_sound hg.1

/-- `{ p: 7, q?: string[], r: [7, string] }` is assignable to an alias of
`{ p: number, r: (number | string)[] } | null` and to `{ p: number } & { q?: string[] }`, and that to
`{ q?: string[] }`; so the values are. -/
example : (∀ v, Mem valueExample v 40 → Mem valueExample v 49) ∧
    (∀ v, Mem valueExample v 40 → Mem valueExample v 41) ∧
    ∀ v, Mem valueExample v 41 → Mem valueExample v 42 :=
  ⟨C84_partial _ valueFaithful rfl rfl rfl (by decide) [.assignable 40 50] 40 49
      (by intro o ho; cases List.mem_singleton.1 ho; exact within_sound _ 64 _ _ _ _ (by decide +kernel))
      (within_sound _ 64 _ _ _ _ (by decide +kernel))
      (allFair_fair _ (f := 20) (by decide +kernel)) (by decide +kernel),
    C84_partial _ valueFaithful rfl rfl rfl (by decide) [] 40 41 (by simp)
      (within_sound _ 64 _ _ _ _ (by decide +kernel))
      (allFair_fair _ (f := 20) (by decide +kernel)) (by decide +kernel),
    C84_partial _ valueFaithful rfl rfl rfl (by decide) [] 41 42 (by simp)
      (within_sound _ 64 _ _ _ _ (by decide +kernel))
      (allFair_fair _ (f := 20) (by decide +kernel)) (by decide +kernel)⟩

/-- The first type has values, and `{ q?: string[] }` is not answered to be assignable to
`{ q?: string }`. -/
example : answer valueExample [] (.assignable 42 50) = false ∧
    Mem valueExample (.obj (fun k => k = .str 0) (fun _ => .num 7)) 21 := by
  refine ⟨by decide +kernel, .object (s := { properties := [prop 0 1] }) rfl
    (by simp [valueExample]) ?_ ?_ (by simp)⟩
  · simp [prop]
  · intro p hp _ _
    simp at hp
    subst hp
    exact .simple trivial

end Verif.Relate
