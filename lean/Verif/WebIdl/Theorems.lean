import Verif.WebIdl.Overload

/-!
# C91: values cross the Web IDL boundary as Web IDL says

`convert` and `toJs` model the conversions of `webidl`, `resolve` its overload resolution.
The theorems hold for every engine: `R` may run any script at any step, change its state and
throw.
-/

namespace Verif.WebIdl

section
variable {σ ε V S N Y : Type} (R : Rt σ ε V S N Y)

/-- C91, conversion: `convert` satisfies the equations of Web IDL, with the same effects on the
engine in the same order.  Missing: the unions that `UnionFits` leaves out, see the
`_violated` theorems. -/
theorem C91_convert_partial : Follows R (convert R) (toJs R) := follows R

/-- C91, typing: a conversion that returns gives a value of the type it was asked for, for
every type, and no sequence in it is longer than the limit. -/
theorem C91_typed (t : Ty) (v : V) : Ensures (convert R t v) (HasType R t) :=
  convert_typed R t v

/-- C91, back to JavaScript: every value of a type without nullable types is converted.
Missing: nullable types, see `C91_to_js_nullable_violated`. -/
theorem C91_to_js_total_partial (hR : NoThrow R) {t : Ty} {x : Val V S N} (h : HasType R t x)
    (hn : NoNullable t) : Returns (toJs R t x) := toJs_returns R hR h hn

/-- C91, back to JavaScript, what is made: a sequence becomes a new array with the converted
elements at the indices from zero on.  Missing: nullable types. -/
theorem C91_to_js_partial : Back R (toJs R) where
  undefined := by simp only [toJs]
  null _ := by simp only [toJs]
  boolean _ := by simp only [toJs]
  double _ := by simp only [toJs]
  domString _ := by simp only [toJs]
  object _ := by simp only [toJs]
  sequence e xs := by
    simp only [toJs]
    rw [toJsAll_eq]
    refine bind_congr' .any fun js _ => ?_
    unfold arrayOf
    simp only [fill_eq]
  frozenArray _ _ := by simp only [toJs]
  asyncSequence _ _ _ _ := by simp only [toJs]
  union _ _ _ := by simp only [toJs]

/-- C91, the distinguishing argument: the first one that tells all overloads apart. -/
theorem C91_distinguishing_index {s : List Overload} {n d : Nat} (hne : s ≠ [])
    (hs : ∀ o ∈ s, ∀ t ∈ o.types, Simple t) (hn : ∀ o ∈ s, o.types.length = n) :
    distIndex s = some d ↔ d < n ∧ Told s d ∧ ∀ j < d, ¬ Told s j :=
  distIndex_eq hs hn hne

/-- C91, overloads, when no overload takes this number of arguments. -/
theorem C91_overload_none {os : List Overload} {args : List V} {m n : Nat}
    (hm : IsMax os m) (hn : n = min m args.length)
    (hs : (os.filter fun o => o.types.length = n) = []) :
    resolve R os args = throwType R := resolve_none R os args hm hn hs

/-- C91, overloads, when one overload takes this number of arguments. -/
theorem C91_overload_one {os : List Overload} {args : List V} {m n : Nat} {o : Overload}
    (hm : IsMax os m) (hn : n = min m args.length)
    (hs : (os.filter fun o => o.types.length = n) = [o]) :
    resolve R os args = (do
      let xs ← arguments R (convert R) o args 0 n
      pure (o, xs)) := resolve_one R os args hm hn hs

/-- C91, overloads, when several do: the arguments before the one that tells them apart are
converted first, then the overload is chosen by it, then the others are converted.  Missing:
the arguments that `ChoiceFits` leaves out, see the `_violated` theorems. -/
theorem C91_overload_many_partial {os : List Overload} {args : List V} {m n d : Nat} {v : V}
    {o p : Overload} {s : List Overload} (hm : IsMax os m) (hn : n = min m args.length)
    (hs : (os.filter fun o => o.types.length = n) = o :: p :: s)
    (simple : ∀ o ∈ os, ∀ t ∈ o.types, Simple t) (hd : d < n) (ht : Told (o :: p :: s) d)
    (hl : ∀ j < d, ¬ Told (o :: p :: s) j) (hv : args[d]? = some v)
    (hf : ChoiceFits R (o :: p :: s) d v) :
    resolve R os args = (do
      let xs ← arguments R (convert R) o args 0 d
      let (q, a) ← chooseSpec R (convert R) (toJs R) (o :: p :: s) d v
      let ys ← match a with
        | some a => do pure (a :: (← arguments R (convert R) q args (d + 1) n))
        | none => arguments R (convert R) q args d n
      pure (q, xs ++ ys)) := resolve_many R os args hm hn hs simple hd ht hl hv hf

/-- C91, overloads, whatever the arguments: what is returned is one of the overloads, for the
number of arguments that count, and arguments of its types. -/
theorem C91_overload_typed {os : List Overload} (ha : Agree os) {m : Nat} (hm : IsMax os m)
    (args : List V) :
    Ensures (resolve R os args) (fun r => r.1 ∈ os ∧
      r.1.types.length = min m args.length ∧ ArgsFit R r.1 args r.2) := by
  have := resolve_ensures R os args ha
  rwa [maxArg_eq hm] at this

/-- C91, no panic: neither conversion nor resolution reads an index out of range. -/
theorem C91_no_panic (hR : CalmRt R) :
    (∀ t v, Calm (convert R t v)) ∧ (∀ t x, Calm (toJs R t x)) ∧
      ∀ os args, Calm (resolve R os args) :=
  ⟨fun t v => convH_calm hR _ t (Nat.le_refl _) none none v, fun t x => toJs_calm hR x t,
    fun os args => resolve_calm hR os args⟩
end

/-- C91, array indices: the key is the number in decimal, and it fits the buffer of 20 bytes
for every `usize`. -/
theorem C91_index_key (n : Nat) :
    indexKey n = decimal n ∧ (n < 2 ^ 64 → (indexKey n).length ≤ 20) :=
  ⟨indexKey_eq n, indexKey_length⟩

/-! ## A small engine, to show that the hypotheses can be met

Numbers are natural numbers, arrays hold numbers, and the state counts the methods read. -/

/-- Values. -/
inductive Js
  | undef | null
  | bool (b : Bool)
  | num (n : Nat)
  | str (s : List Nat)
  | obj
  | arr (xs : List Nat)
  | iter
  | method
deriving DecidableEq, Repr

/-- States: methods read, what the iterator has left, what was put in arrays. -/
structure World where
  reads : Nat := 0
  left : List Nat := []
  made : List (List Nat × Js) := []
deriving DecidableEq, Repr

/-- The engine, with a limit of three. -/
def toy : Rt World String Js (List Nat) Nat Sym where
  limit := 3
  isUndefined v := v == .undef
  isNull v := v == .null
  isBoolean v := match v with | .bool _ => true | _ => false
  isNumber v := match v with | .num _ => true | _ => false
  isObject v := match v with | .obj | .arr _ | .iter | .method => true | _ => false
  isStringObject _ := false
  vUndefined := .undef
  vNull := .null
  vBool := .bool
  vNumber := .num
  vString := .str
  typeError s := ("TypeError", s)
  toBoolean v := pure (v != .undef)
  toNumber v := pure (match v with | .num n => n | _ => 0)
  toStr v := pure (match v with | .num n => decimal n | .str s => s | _ => [])
  symbol := pure
  getMethod v y := fun s =>
    (.ok (match v, y with | .arr _, .iterator => some .method | _, _ => none),
      { s with reads := s.reads + 1 })
  getIterator v _ := fun s =>
    (.ok .iter, { s with left := match v with | .arr xs => xs | _ => [] })
  step _ := fun s =>
    match s.left with
    | [] => (.ok none, s)
    | x :: xs => (.ok (some (.num x)), { s with left := xs })
  allocString s := pure s
  allocArray _ := pure .obj
  createData _ k v := fun s => (.ok (), { s with made := s.made ++ [(k, v)] })
  freeze _ := pure ()

theorem toy_noThrow : NoThrow toy :=
  ⟨fun s w => ⟨s, w, rfl⟩, fun _ w => ⟨.obj, w, rfl⟩,
    fun _ k v w => ⟨(), { w with made := w.made ++ [(k, v)] }, rfl⟩⟩

theorem toy_calm : CalmRt toy where
  toBoolean _ _ _ e := by cases e
  toNumber _ _ _ e := by cases e
  toStr _ _ _ e := by cases e
  symbol _ _ _ e := by cases e
  getMethod _ _ _ _ e := by cases e
  getIterator _ _ _ _ e := by cases e
  step v s s' e := by
    simp only [toy] at e
    cases h : s.left <;> rw [h] at e <;> cases e
  allocString _ _ _ e := by cases e
  allocArray _ _ _ e := by cases e
  createData _ _ _ _ _ e := by cases e
  freeze _ _ _ e := by cases e

/-- The text `abc`. -/
def abc : List Nat := [97, 98, 99]

/-- A union and a value that fit, and the conversion returns. -/
example : UnionFits toy [.sequence .double, .domString] (.arr [4, 5]) :=
  ⟨Or.inl rfl, Or.inl rfl, Or.inl rfl, Or.inl rfl⟩

example : unionSpec toy (convert toy) (toJs toy) [.sequence .double, .domString] (.arr [4, 5]) {}
    = (.ok (.union (.sequence .double) (.sequence [.double 4, .double 5])), { reads := 1 }) := by
  rw [← C91_convert_partial toy |>.union _ _ ⟨Or.inl rfl, Or.inl rfl, Or.inl rfl, Or.inl rfl⟩]
  with_unfolding_all rfl

/-- The limit is kept: four elements are one too many. -/
example : (convert toy (.sequence .double) (.arr [1, 2, 3, 4]) {}).1 = .error (.limit 4 3) := by
  with_unfolding_all rfl

example : (convert toy (.frozenArray .double) (.arr [7, 8]) {}) =
    (.ok (.frozenArray .obj), { reads := 1, made := [([48], .num 7), ([49], .num 8)] }) := by
  with_unfolding_all rfl

example : Returns (toJs toy (.sequence .double) (.sequence [.double 4, .double 5])) :=
  C91_to_js_total_partial toy toy_noThrow
    (.sequence (by decide) (by
      intro x hx
      simp at hx
      rcases hx with rfl | rfl <;> exact .double _))
    (.sequence .double)

example : Calm (resolve toy [⟨"a", [.double], []⟩, ⟨"b", [.domString], []⟩] [.num 3]) :=
  (C91_no_panic toy toy_calm).2.2 _ _

/-- Two overloads with two arguments, and one with one. -/
def lib : List Overload :=
  [⟨"seq", [.double, .sequence .double], [false, false]⟩,
   ⟨"str", [.double, .domString], [false, false]⟩,
   ⟨"one", [.double], [false]⟩]

theorem simple_of {t : Ty} (h : t.kind ≠ .union) (h' : t.kind ≠ .nullable) : Simple t := by
  intro u hu
  rcases hu with hu | ⟨hu, -⟩
  · simp at hu; subst hu; exact absurd rfl h'
  · simp at hu; subst hu; exact absurd rfl h

theorem lib_simple : ∀ o ∈ lib, ∀ t ∈ o.types, Simple t := by
  intro o ho t ht
  have h : ∀ o ∈ lib, ∀ t ∈ o.types, t.kind ≠ .union ∧ t.kind ≠ .nullable := by
    simp [lib, Ty.kind]
  exact simple_of (h o ho t ht).1 (h o ho t ht).2

theorem lib_max : IsMax lib 2 := ⟨by simp [lib], Or.inr ⟨_, by simp [lib]; left; rfl, rfl⟩⟩

theorem lib_two : (lib.filter fun o => o.types.length = 2) =
    [⟨"seq", [.double, .sequence .double], [false, false]⟩,
     ⟨"str", [.double, .domString], [false, false]⟩] := by simp [lib]

theorem lib_told : Told (lib.filter fun o => o.types.length = 2) 1 := by
  rw [lib_two]
  simp [Told, Apart, members, Ty.kind, Kind.class]

theorem lib_not_told : ¬ Told (lib.filter fun o => o.types.length = 2) 0 := by
  rw [lib_two]
  simp [Told, Apart, members, Ty.kind, Kind.class]

theorem lib_agree : Agree lib where
  simple := lib_simple
  same := by
    intro n j hj o ho p hp h1 h2
    by_cases hn : n = 2
    · subst hn
      have j0 : j = 0 := by
        by_cases h : 1 ≤ j
        · exact absurd lib_told (hj 1 h)
        · omega
      subst j0
      simp [lib] at ho hp
      rcases ho with rfl | rfl | rfl <;> rcases hp with rfl | rfl | rfl <;> simp at h1 h2 <;>
        exact ⟨rfl, rfl⟩
    · simp [lib] at ho hp
      rcases ho with rfl | rfl | rfl <;> rcases hp with rfl | rfl | rfl <;> simp at h1 h2 <;>
        first | omega | exact ⟨rfl, rfl⟩

example : ChoiceFits toy (lib.filter fun o => o.types.length = 2) 1 (.arr [4]) := by
  rw [lib_two]
  refine ⟨by simp, ?_, ?_, ?_, ?_, ?_, ?_, ?_⟩
  · intro h; cases h
  · rintro (h | h) <;> cases h
  · intro _; decide +kernel
  · left; decide +kernel
  · left; decide +kernel
  · right; decide +kernel
  · intro o ho k hk h
    simp at ho
    rcases ho with rfl | rfl <;> rcases hk with rfl | rfl | rfl <;>
      simp [Overload.has, members, Ty.kind] at h ⊢

/-- The call with an array takes the first overload, and reads `@@iterator` once. -/
example : resolve toy lib [.num 1, .arr [4]] {} =
    (.ok (⟨"seq", [.double, .sequence .double], [false, false]⟩,
      [.value (.double 1), .value (.sequence [.double 4])]), { reads := 1 }) := by
  rw [C91_overload_many_partial toy (n := 2) (d := 1) lib_max rfl lib_two lib_simple (by decide)
    (by rw [← lib_two]; exact lib_told)
    (by
      intro j hj
      have : j = 0 := by omega
      subst this
      rw [← lib_two]
      exact lib_not_told) rfl
    (by
      refine ⟨by simp, ?_, ?_, ?_, ?_, ?_, ?_, ?_⟩
      · intro h; cases h
      · rintro (h | h) <;> cases h
      · intro _; decide +kernel
      · left; decide +kernel
      · left; decide +kernel
      · right; decide +kernel
      · intro o ho k hk h
        simp at ho
        rcases ho with rfl | rfl <;> rcases hk with rfl | rfl | rfl <;>
          simp [Overload.has, members, Ty.kind] at h ⊢)]
  with_unfolding_all rfl

/-! ## Where the code departs from Web IDL -/

/-- A value of a nullable type that is not `null` is not converted back: `convert_idl_to_js`
has no case for it.  So a `FrozenArray<double?>` cannot be made from `[1]`. -/
theorem C91_to_js_nullable_violated :
    HasType toy (.nullable .double) (.double 1) ∧
    (toJs toy (.nullable .double) (.double 1) {}).1 = .error (.js "TypeError") ∧
    (convert toy (.frozenArray (.nullable .double)) (.arr [1]) {}).1 = .error (.js "TypeError") :=
  ⟨.some (.double 1), rfl, by with_unfolding_all rfl⟩

/-- A number given for `(double or DOMString)` becomes a string. -/
theorem C91_union_number_violated :
    (convert toy (.union [.double, .domString]) (.num 7) {}).1
      = .ok (.union .domString (.domString [55])) ∧
    (unionSpec toy (convert toy) (toJs toy) [.double, .domString] (.num 7) {}).1
      = .ok (.union .double (.double 7)) :=
  ⟨by with_unfolding_all rfl, by with_unfolding_all rfl⟩

/-- A boolean given for `(boolean or object)` is refused, and so is an object. -/
theorem C91_union_boolean_object_violated :
    (convert toy (.union [.boolean, .object]) (.bool true) {}).1 = .error (.js "TypeError") ∧
    (unionSpec toy (convert toy) (toJs toy) [.boolean, .object] (.bool true) {}).1
      = .ok (.union .boolean (.boolean true)) ∧
    (convert toy (.union [.boolean, .object]) .obj {}).1 = .error (.js "TypeError") ∧
    (unionSpec toy (convert toy) (toJs toy) [.boolean, .object] .obj {}).1
      = .ok (.union .object (.object .obj)) :=
  ⟨by with_unfolding_all rfl, by with_unfolding_all rfl, by with_unfolding_all rfl,
    by with_unfolding_all rfl⟩

/-- An array given for `(sequence<double>? or DOMString)` becomes a string. -/
theorem C91_union_nullable_violated :
    (convert toy (.union [.nullable (.sequence .double), .domString]) (.arr [4]) {}).1
      = .ok (.union .domString (.domString [])) ∧
    (unionSpec toy (convert toy) (toJs toy) [.nullable (.sequence .double), .domString]
      (.arr [4]) {}).1 = .ok (.union (.sequence .double) (.sequence [.double 4])) :=
  ⟨by with_unfolding_all rfl, by with_unfolding_all rfl⟩

/-- The overloads `f(double)` and `f(DOMString)`, `f(7)`: the second one is taken. -/
theorem C91_overload_number_violated :
    let os : List Overload := [⟨"num", [.double], [false]⟩, ⟨"str", [.domString], [false]⟩]
    (resolve toy os [.num 7] {}).1
      = .ok (⟨"str", [.domString], [false]⟩, [.value (.domString [55])]) ∧
    (chooseSpec toy (convert toy) (toJs toy) os 0 (.num 7) {}).1
      = .ok (⟨"num", [.double], [false]⟩, none) :=
  ⟨by with_unfolding_all rfl, by with_unfolding_all rfl⟩

/-- The overloads `f(object?)` and `f(DOMString)`, `f(null)`: the second one is taken. -/
theorem C91_overload_null_violated :
    let os : List Overload :=
      [⟨"obj", [.nullable .object], [false]⟩, ⟨"str", [.domString], [false]⟩]
    (resolve toy os [.null] {}).1
      = .ok (⟨"str", [.domString], [false]⟩, [.value (.domString [])]) ∧
    (chooseSpec toy (convert toy) (toJs toy) os 0 .null {}).1
      = .ok (⟨"obj", [.nullable .object], [false]⟩, none) :=
  ⟨by with_unfolding_all rfl, by with_unfolding_all rfl⟩

/-- The overloads `f(optional sequence<double> x)` and `f(DOMString)`, `f(undefined)`: the
second one is taken. -/
theorem C91_overload_optional_violated :
    let os : List Overload :=
      [⟨"opt", [.sequence .double], [true]⟩, ⟨"str", [.domString], [false]⟩]
    (resolve toy os [.undef] {}).1
      = .ok (⟨"str", [.domString], [false]⟩, [.value (.domString [])]) ∧
    (chooseSpec toy (convert toy) (toJs toy) os 0 .undef {}).1
      = .ok (⟨"opt", [.sequence .double], [true]⟩, none) :=
  ⟨by with_unfolding_all rfl, by with_unfolding_all rfl⟩

/-- The overloads `f(object)` and `f(double)`, `f({})`: no overload is taken. -/
theorem C91_overload_object_violated :
    let os : List Overload := [⟨"obj", [.object], [false]⟩, ⟨"num", [.double], [false]⟩]
    (resolve toy os [.obj] {}).1 = .error (.js "TypeError") ∧
    (chooseSpec toy (convert toy) (toJs toy) os 0 .obj {}).1
      = .ok (⟨"obj", [.object], [false]⟩, none) :=
  ⟨by with_unfolding_all rfl, by with_unfolding_all rfl⟩

/-- The overloads `f(sequence<double>?)` and `f(DOMString)`, `f([4])`: the method `@@iterator`
is read twice, once for the choice and once for the conversion, so that a script sees it and
may give another method the second time. -/
theorem C91_overload_reads_twice_violated :
    let os : List Overload :=
      [⟨"seq", [.nullable (.sequence .double)], [false]⟩, ⟨"str", [.domString], [false]⟩]
    (resolve toy os [.arr [4]] {}).2.reads = 2 ∧
    (resolve toy [⟨"seq", [.sequence .double], [false]⟩, ⟨"str", [.domString], [false]⟩]
      [.arr [4]] {}).2.reads = 1 :=
  ⟨by with_unfolding_all rfl, by with_unfolding_all rfl⟩

end Verif.WebIdl
