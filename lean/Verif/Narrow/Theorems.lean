import Verif.Narrow.Proofs

/-!
# Narrowing (C86)

`C86_partial`: where a condition came out true or false, the variables still have values of their
narrowed types, for the conditions and types that are `Fair`. `C86_truthy`: tests for truthiness are
fair for all types. `C86_within`: for all conditions and types, narrowing adds no values. The
`_violated` theorems are cases in which narrowing loses the value a variable has.
-/

namespace Verif.Narrow

/-- A condition that came out as `b` narrows the variables to types that still have their values. -/
theorem C86_partial (K : Tools) (W : World) (hU : UnionOk K W) (hA : AssignableOk K W)
    (hN : NumericOk K) (σ : Nat → V) (Γ : Env) (c : Cond) (b : Bool) (hσ : Models K W σ Γ)
    (hr : Runs K W σ c b) (hf : Fair K W Γ b c) : Models K W σ (branch K Γ c b) :=
  keeps hU hA hN hr hσ hf

/-- A test of the truth of a variable keeps its value, whatever its type. -/
theorem C86_truthy (K : Tools) (W : World) (hU : UnionOk K W) (hA : AssignableOk K W)
    (hN : NumericOk K) (σ : Nat → V) (Γ : Env) (x : Nat) (hσ : Models K W σ Γ) :
    Models K W σ (branch K Γ (.test false .truthy x) (σ x).truthy) ∧
    Models K W σ (branch K Γ (.not (.test false .truthy x)) (!(σ x).truthy)) := by
  have h : Runs K W σ (.test false .truthy x) (σ x).truthy := .test rfl
  constructor
  · exact keeps hU hA hN h hσ (by cases (σ x).truthy <;> trivial)
  · exact keeps hU hA hN (.not h) hσ (by cases (σ x).truthy <;> trivial)

/-- A narrowed type has no values the type did not have. -/
theorem C86_within (K : Tools) (W : World) (hU : UnionOk K W) (hA : AssignableOk K W) (Γ : Env)
    (c : Cond) (b : Bool) (x : Nat) (v : V) (h : Mem K W v (branch K Γ c b x)) :
    Mem K W v (Γ x) :=
  within hU hA c Γ b x h

/-! ## A store and a world -/

/-- Unions without `never`; a type is assignable to itself only in so far as both are strings. -/
def tools : Tools where
  union ts :=
    match ts.filter (fun t => !isNever t) with
    | [] => .never
    | [t] => t
    | ts => .union ts
  assignable a b := match a, b with
    | .strLit _, .string => true
    | .string, .string => true
    | _, _ => false
  numeric s := s.toList.all fun c => c.isDigit || c = '-'
  index s := s.toList.all Char.isDigit

/-- Objects may have more properties than their types say; 1 == "1". -/
def world : World where
  ref _ _ := False
  param _ _ := True
  computed _ _ := False
  iteratorReturn _ := False
  template _ _ := True
  caseOf _ _ := False
  builtin _ _ := .undef
  coerces v lit := v = .num (.val 1) ∧ lit = .str "1"
  exact := false

theorem tools_union (W : World) : UnionOk tools W := by
  intro ts v
  have key : ∀ us : List Ty, Mem tools W v (match us with | [] => .never | [t] => t | ts => .union ts) ↔
      ∃ t ∈ us, Mem tools W v t := by
    intro us
    match us with
    | [] => simp [not_mem_never]
    | [t] => simp
    | a :: b :: r =>
      constructor
      · intro h
        cases h with
        | union hm h => exact ⟨_, hm, h⟩
      · rintro ⟨t, ht, h⟩
        exact .union ht h
  show Mem tools W v (match ts.filter (fun t => !isNever t) with | [] => .never | [t] => t | ts => .union ts) ↔ _
  rw [key]
  constructor
  · rintro ⟨t, ht, h⟩
    exact ⟨t, (List.mem_filter.1 ht).1, h⟩
  · rintro ⟨t, ht, h⟩
    refine ⟨t, List.mem_filter.2 ⟨ht, ?_⟩, h⟩
    cases hn : isNever t
    · rfl
    · rw [isNever_eq hn] at h
      exact absurd h not_mem_never

theorem tools_assignable (W : World) : AssignableOk tools W := by
  intro a b v h hm
  simp only [tools] at h
  split at h
  · cases hm
    exact .string
  · exact hm
  · cases h

theorem tools_numeric : NumericOk tools := by
  intro n
  have hd : ∀ m : Nat, ∀ c ∈ (toString m).toList, c.isDigit = true := by
    intro m c hc
    rw [show (toString m) = String.ofList (Nat.toDigits 10 m) from rfl] at hc
    simp only [String.toList_ofList] at hc
    exact Nat.isDigit_of_mem_toDigits (by decide) (by decide) hc
  simp only [tools, List.all_eq_true, Bool.or_eq_true, decide_eq_true_eq]
  intro c hc
  cases n with
  | ofNat m => exact .inl (hd m c hc)
  | negSucc m =>
    rw [show toString (Int.negSucc m) = "-" ++ toString (m + 1) from rfl] at hc
    simp only [String.toList_append, List.mem_append] at hc
    rcases hc with hc | hc
    · right
      simpa using hc
    · exact .inl (hd _ c hc)

/-! ## Cases of C86_partial -/

/-- An object with the given properties. -/
def obj (ps : List (String × V)) : V :=
  .obj .plain (fun k => ps.any fun p => decide (JsKey.name p.1 = k))
    (fun k => ((ps.find? fun p => decide (JsKey.name p.1 = k)).map (·.2)).getD .undef)

/-- `{ kind: "a", n: number }` -/
def shapeA : Ty := .object [(.str "kind", .strLit "a", false), (.str "n", .number, false)] [] false
/-- `{ kind: "b" }` -/
def shapeB : Ty := .object [(.str "kind", .strLit "b", false)] [] false
/-- `x && x.kind === "a"` -/
def isA : Cond := .and (.test false .truthy 0) (.test false (.path (.str "kind") [] (.str "a")) 0)
/-- `{ kind: "a", n: number } | { kind: "b" } | undefined` -/
def shapes : Env := fun _ => .union [shapeA, shapeB, .undef]

theorem mem_shapeB : Mem tools world (obj [("kind", .str "b")]) shapeB := by
  refine .object (by simp) ?_ ?_ ?_ ?_
  · intro k t h
    simp at h
    obtain ⟨rfl, rfl⟩ := h
    rfl
  · intro k t o h _ _
    simp at h
    obtain ⟨rfl, rfl, rfl⟩ := h
    exact .strLit
  · simp
  · intro h
    cases h

theorem found_kind (t : Ty) (o : Bool) (ps : List (Key × Ty × Bool)) (is : List (Ty × Ty)) :
    found (.str "kind") ((.str "kind", t, o) :: ps) is = some (t, o) := by
  simp [found, Segment.same]

theorem path_kind (t : Ty) (o : Bool) (ps : List (Key × Ty × Bool)) (is : List (Ty × Ty)) (cl : Bool) :
    matchesPath (.str "a") [.str "kind"] (.object ((.str "kind", t, o) :: ps) is cl) =
      matchesValue (.str "a") t := by
  rw [matchesPath, matchesProps_found, found_kind]
  rfl

theorem narrow_kind : (Test.path (.str "kind") [] (.str "a")).narrow tools (.union [shapeA, shapeB]) =
    (shapeA, shapeB) := by
  show split tools false _ _ = _
  simp only [split, splits, shapeA, shapeB, discriminantLeaf, path_kind]
  rfl

theorem facts_isA : facts tools shapes isA = andFacts tools
    ⟨one 0 (.union [shapeA, shapeB]), one 0 .undef⟩ ⟨one 0 shapeA, one 0 shapeB⟩ := by
  have h : facts tools (apply shapes (facts tools shapes (.test false .truthy 0)).truthy)
      (.test false (.path (.str "kind") [] (.str "a")) 0) = ⟨one 0 shapeA, one 0 shapeB⟩ := by
    have e : apply shapes (facts tools shapes (.test false .truthy 0)).truthy 0 =
      .union [shapeA, shapeB] := rfl
    simp only [facts] at e ⊢
    rw [e, narrow_kind]
    rfl
  rw [isA, facts, h]
  rfl

theorem isA_false : branch tools shapes isA false 0 = .union [shapeB, .undef] := by
  rw [branch, facts_isA]
  rfl

theorem isA_true : branch tools shapes isA true 0 = shapeA := by
  rw [branch, facts_isA]
  rfl

theorem fair_isA_false : Fair tools world shapes false isA := by
  refine ⟨by simp [Cond.vars], ?_, trivial, trivial, ?_⟩
  · intro y hy
    simp only [Cond.vars, List.mem_singleton] at hy
    subst hy
    intro l hl
    right; left
    change l ∈ leaves true .undef at hl
    simpa [leaves] using hl
  · intro l hl
    change l ∈ leaves false (.union [shapeA, shapeB]) at hl
    simp only [leaves, leavesAll, shapeA, shapeB, List.append_nil, List.cons_append, List.nil_append,
      List.mem_cons, List.not_mem_nil, or_false] at hl
    rcases hl with rfl | rfl
    · exact .inr ⟨_, found_kind _ _ _ _, rfl⟩
    · left
      intro t o h
      rw [found_kind] at h
      cases h
      simp [leaves, Apart]

theorem fair_isA_true : Fair tools world shapes true isA := by
  refine ⟨trivial, ?_⟩
  intro l hl
  change l ∈ leaves false (.union [shapeA, shapeB]) at hl
  simp only [leaves, leavesAll, shapeA, shapeB, List.append_nil, List.cons_append, List.nil_append,
    List.mem_cons, List.not_mem_nil, or_false] at hl
  rcases hl with rfl | rfl
  · refine ⟨_, _, found_kind _ _ _ _, ?_, by simp⟩
    intro l hl
    simp only [leaves, List.mem_singleton] at hl
    subst hl
    exact ⟨rfl, trivial⟩
  · refine ⟨_, _, found_kind _ _ _ _, ?_, by simp⟩
    intro l hl
    simp only [leaves, List.mem_singleton] at hl
    subst hl
    exact ⟨rfl, trivial⟩

/-- Where the condition holds the variable is the first of the shapes, and elsewhere the others. -/
example : branch tools shapes isA true 0 = shapeA ∧
    branch tools shapes isA false 0 = .union [shapeB, .undef] := ⟨isA_true, isA_false⟩

theorem runs_isA : Runs tools world (fun _ => obj [("kind", .str "b")]) isA false :=
  .andTrue (.test rfl) (.test ⟨.str "b", rfl, by simp [Lit.val]⟩)

/-- The hypotheses of C86_partial are met by a variable that is narrowed. -/
example : Mem tools world (obj [("kind", .str "b")]) (.union [shapeB, .undef]) :=
  isA_false ▸ C86_partial tools world (tools_union _) (tools_assignable _) tools_numeric _ shapes isA false
    (fun _ => .union (by simp) mem_shapeB) runs_isA fair_isA_false 0

/-- C86_truthy: `0 | "a"` is narrowed to `"a"`. -/
example : branch tools (fun _ => .union [.numLit (.val 0), .strLit "a"]) (.test false .truthy 0) true 0 =
    .strLit "a" := rfl
example : Mem tools world (.str "a") (.strLit "a") :=
  (C86_truthy tools world (tools_union _) (tools_assignable _) tools_numeric (fun _ => .str "a")
    (fun _ => .union [.numLit (.val 0), .strLit "a"]) 0 (fun _ => .union (by simp) .strLit)).1 0

/-- C86_within: the narrowed type of the example has a value. -/
example : Mem tools world (obj [("kind", .str "b")]) (.union [shapeA, shapeB, .undef]) :=
  C86_within tools world (tools_union _) (tools_assignable _) shapes isA false 0 _
    (isA_false ▸ .union (m := shapeB) (by simp) mem_shapeB)

/-! ## Values that are lost -/

/-- All variables have values of the type `t`, the condition comes out as `b`, and the value of `x` is
not in the type `x` is narrowed to. -/
def Lost (t : Ty) (σ : Nat → V) (c : Cond) (b : Bool) (x : Nat) : Prop :=
  (∀ y, Mem tools world (σ y) t) ∧ Runs tools world σ c b ∧
    ¬ Mem tools world (σ x) (branch tools (fun _ => t) c b x)

/-- `if (x && y) {} else { y }`: `y` is taken to be false, though `x` may have been. -/
theorem C86_and_violated :
    Lost .boolean (fun y => .bool (y = 1)) (.and (.test false .truthy 0) (.test false .truthy 1)) false 1 := by
  refine ⟨fun _ => .boolean, .andFalse (.test rfl), ?_⟩
  show ¬ Mem tools world (.bool true) (.boolLit false)
  intro h
  cases h

/-- `x: 0 | 1 | 2; if (x && x === 1) {} else { x }`: 0 is forgotten. -/
theorem C86_and_same_violated :
    Lost (.union [.numLit (.val 0), .numLit (.val 1), .numLit (.val 2)]) (fun _ => .num (.val 0))
      (.and (.test false .truthy 0) (.test false (.eq (.num 1) false) 0)) false 0 := by
  refine ⟨fun _ => .union (m := .numLit (.val 0)) (by simp) .numLit, .andFalse (.test rfl), ?_⟩
  show ¬ Mem tools world (.num (.val 0)) (.numLit (.val 2))
  intro h
  cases h

/-- `if (x ?? y) { y }`: `y` is taken to be true, though it may not have been looked at. -/
theorem C86_coalesce_violated :
    Lost (.union [.boolLit true, .boolLit false, .undef]) (fun y => .bool (y = 0))
      (.coalesce 0 (.test false .truthy 1)) true 1 := by
  refine ⟨fun y => ?_, .left (by simp [V.nullish]), ?_⟩
  · by_cases h : y = 0
    · simp only [h]
      exact .union (m := .boolLit true) (by simp) .boolLit
    · simp only [h]
      exact .union (m := .boolLit false) (by simp) .boolLit
  · show ¬ Mem tools world (.bool false) (.boolLit true)
    intro h
    cases h

/-- An array object. -/
def arr (ps : List (String × V)) : V :=
  .obj .array (fun k => ps.any fun p => decide (JsKey.name p.1 = k))
    (fun k => ((ps.find? fun p => decide (JsKey.name p.1 = k)).map (·.2)).getD .undef)

/-- `x: []; if (typeof x === "object") { x }`: never. -/
theorem C86_typeof_tuple_violated :
    Lost (.tuple []) (fun _ => arr [("length", .num (.val 0))]) (.test false (.typeof "object") 0) true 0 := by
  refine ⟨fun _ => .tuple rfl (by simp) (by simp), .test (by simp [Outcome, V.typeof, arr]), ?_⟩
  show ¬ Mem tools world _ .never
  exact not_mem_never

/-- `x: void; if (typeof x === "undefined") { x }`: never. -/
theorem C86_typeof_void_violated :
    Lost .void (fun _ => .undef) (.test false (.typeof "undefined") 0) true 0 :=
  ⟨fun _ => .void, .test (by simp [Outcome, V.typeof]), not_mem_never⟩

/-- ``x: `a${string}`; if (typeof x === "string") { x }``: never. -/
theorem C86_typeof_template_violated :
    Lost (.template 0) (fun _ => .str "ab") (.test false (.typeof "string") 0) true 0 :=
  ⟨fun _ => .template trivial, .test (by simp [Outcome, V.typeof]), not_mem_never⟩

/-- `x: string & {}; if (typeof x === "string") { x }`: never. -/
theorem C86_typeof_intersection_violated :
    Lost (.inter [.string, .emptyObject]) (fun _ => .str "a") (.test false (.typeof "string") 0) true 0 := by
  refine ⟨fun _ => .inter ?_, .test (by simp [Outcome, V.typeof]), not_mem_never⟩
  intro m hm
  simp only [List.mem_cons, List.not_mem_nil, or_false] at hm
  rcases hm with rfl | rfl
  · exact .string
  · exact .emptyObject (by simp [V.nullish])

/-- `x: { (): void }; if (typeof x === "function") { x }`: never. -/
theorem C86_typeof_function_violated :
    Lost (.object [] [] true) (fun _ => .obj .function (fun _ => false) (fun _ => .undef))
      (.test false (.typeof "function") 0) true 0 := by
  refine ⟨fun _ => .object (by simp) (by simp) (by simp) (by simp) ?_,
    .test (by simp [Outcome, V.typeof]), not_mem_never⟩
  intro h
  cases h

/-- `x: unknown; if (x === null) { x }`: never. -/
theorem C86_null_violated :
    Lost .unknown (fun _ => .null) (.test false (.eq .null false) 0) true 0 :=
  ⟨fun _ => .unknown, .test (by simp [Outcome, Lit.val]), not_mem_never⟩

/-- `x: unknown; if (x === "a") { x }`: never. -/
theorem C86_literal_violated :
    Lost .unknown (fun _ => .str "a") (.test false (.eq (.str "a") false) 0) true 0 :=
  ⟨fun _ => .unknown, .test (by simp [Outcome, Lit.val]), not_mem_never⟩

/-- `x: number | string; if (x == "1") { x }`: the number 1 is forgotten. -/
theorem C86_loose_violated :
    Lost (.union [.number, .string]) (fun _ => .num (.val 1)) (.test false (.eq (.str "1") true) 0) true 0 := by
  refine ⟨fun _ => .union (m := .number) (by simp) .number,
    .test (by simp [Outcome, Coerces, world]), ?_⟩
  show ¬ Mem tools world _ (.strLit "1")
  intro h
  cases h

/-- `x: { a?: number }; if ("a" in x) {} else { x }`: never. -/
theorem C86_in_optional_violated :
    Lost (.object [(.str "a", .number, true)] [] false) (fun _ => obj []) (.test false (.has "a") 0)
      false 0 := by
  refine ⟨fun _ => .object (by simp) (by simp) ?_ (by simp) (fun h => by cases h),
    .test ⟨_, _, _, rfl, rfl⟩, not_mem_never⟩
  intro k t o _ h
  cases h

/-- `x: {}-like object; if ("b" in x) { x }`: never, though objects may have more properties than
their types say. -/
theorem C86_in_open_violated :
    Lost (.object [] [] false) (fun _ => obj [("b", .null)]) (.test false (.has "b") 0) true 0 :=
  ⟨fun _ => .object (by simp) (by simp) (by simp) (by simp) (fun h => by cases h),
    .test ⟨_, _, _, rfl, rfl⟩, not_mem_never⟩

/-- `x: { kind: string }; if (x.kind === "a") {} else { x }`: never. -/
theorem C86_discriminant_violated :
    Lost (.object [(.str "kind", .string, false)] [] false) (fun _ => obj [("kind", .str "b")])
      (.test false (.path (.str "kind") [] (.str "a")) 0) false 0 := by
  refine ⟨fun _ => .object (by simp) ?_ ?_ (by simp) (fun h => by cases h),
    .test ⟨.str "b", rfl, by simp [Lit.val]⟩, ?_⟩
  · intro k t h
    simp at h
    obtain ⟨rfl, rfl⟩ := h
    rfl
  · intro k t o h _ _
    simp at h
    obtain ⟨rfl, rfl, rfl⟩ := h
    exact .string
  · have e : branch tools (fun _ => .object [(.str "kind", .string, false)] [] false)
        (.test false (.path (.str "kind") [] (.str "a")) 0) false 0 = .never := by
      simp [branch_on, Facts.on, facts, one, Test.narrow, narrowDiscriminant, split, discriminantLeaf,
        path_kind, matchesValue]
    rw [e]
    exact not_mem_never

/-- `x: number[]; if (x.length === 0) { x }`: never. -/
theorem C86_length_violated :
    Lost (.array .number) (fun _ => arr [("length", .num (.val 0))])
      (.test false (.path (.str "length") [] (.num 0)) 0) true 0 := by
  refine ⟨fun _ => .array rfl ?_, .test ⟨.num (.val 0), rfl, by simp [Lit.val]⟩, ?_⟩
  · intro s hs hi
    simp at hs
    subst hs
    exact absurd hi (by decide)
  · have e : branch tools (fun _ => .array .number)
        (.test false (.path (.str "length") [] (.num 0)) 0) true 0 = .never := by
      simp [branch_on, Facts.on, facts, one, Test.narrow, narrowDiscriminant, split, discriminantLeaf,
        matchesPath]
    rw [e]
    exact not_mem_never

/-- `x: { a: null }; if (isB(x)) { x }` where `isB(x): x is { b: null }`: never. -/
theorem C86_predicate_violated :
    Lost (.object [] [] false) (fun _ => obj [("b", .null)])
      (.test false (.is (.object [(.str "b", .null, false)] [] false)) 0) true 0 := by
  refine ⟨fun _ => .object (by simp) (by simp) (by simp) (by simp) (fun h => by cases h),
    .test ⟨fun _ => .object (by simp) ?_ ?_ (by simp) (fun h => by cases h), fun _ => rfl⟩,
    not_mem_never⟩
  · intro k t h
    simp at h
    obtain ⟨rfl, rfl⟩ := h
    rfl
  · intro k t o h _ _
    simp at h
    obtain ⟨rfl, rfl, rfl⟩ := h
    exact .null

end Verif.Narrow
