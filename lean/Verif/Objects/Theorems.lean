import Verif.Objects.Order

/-!
# Properties C09–C13, C50: objects and arrays

`run ops ⟨[], alloc⟩` is the store after an arbitrary history `ops` of public operations on an initially empty heap
whose allocator answers as `alloc` says. Specifications are in `Spec.lean`.
-/

namespace Verif.Objects

/-! ## C13 Array indices -/

/-- C13: a string key is treated as array index `i` iff it is the canonical numeral of `i ≤ 2^32 - 2`. -/
theorem C13_array_index (k : Key) (i : Nat) : k.arrayIndex = some i ↔ IsArrayIndex k i := by
  rw [arrayIndex_iff]

/-- C13 on strings. -/
theorem C13_string_to_array_index (u : Units) (i : Nat) :
    stringToArrayIndex u = some i ↔ u = numeral i ∧ i ≤ 2 ^ 32 - 2 := by
  have := C13_array_index (.str u) i
  simpa [Key.arrayIndex, IsArrayIndex] using this

example : stringToArrayIndex [52, 50] = some 42 := by decide
example : stringToArrayIndex [48, 49] = none := by decide
/-- "4294967294" is an index, "4294967295" is not. -/
example : stringToArrayIndex [52, 50, 57, 52, 57, 54, 55, 50, 57, 52] = some 4294967294 := by decide +kernel
example : stringToArrayIndex [52, 50, 57, 52, 57, 54, 55, 50, 57, 53] = none := by decide +kernel

/-! ## C09 Defining a property -/

/-- C09: defining a property on an ordinary object either fails without effect (because the descriptor mixes data
and accessor fields, or memory ran out) or answers as ValidateAndApplyPropertyDescriptor prescribes. -/
theorem C09_define (s : Store) (id : Nat) (o : Obj) (k : Key) (p : Patch) (ho : s.objs[id]? = some o)
    (hord : o.arrayLen = none) :
    match step (.define id k p) s with
    | (.bool b, s') => ∃ o', s'.objs = s.objs.set id o' ∧ DefinedAs p k o o' b
    | (.err e, s') => s'.objs = s.objs ∧
        (e = .invalidPatch ∧ HasDataField p ∧ HasAccessorField p ∨ e = .outOfMemory ∧ ¬ Ample s)
    | _ => False := by
  have hself : s.objs = s.objs.set id o := (set_self ho).symm
  have hamp : Ample s → (ordinaryDefine id k p s).1 ≠ .error .outOfMemory := fun h => (AM.ordinaryDefine id k p s h).1
  have hout := ordinaryDefine_out id k p s
  have hst : step (.define id k p) s = toRes .bool (ordinaryDefine id k p s) := by
    show toRes .bool (defineOwn id k p s) = _
    unfold defineOwn
    rw [bind_run, getObj_some ho]
    simp [hord]
  rw [hst]
  generalize ordinaryDefine id k p s = r at hout hamp
  have wf : p.valid = true → ¬ (HasDataField p ∧ HasAccessorField p) := fun h => (valid_iff p).1 h
  cases hout with
  | invalid hv =>
    refine ⟨rfl, .inl ⟨rfl, ?_⟩⟩
    have : ¬ ¬ (HasDataField p ∧ HasAccessorField p) := fun h => by rw [(valid_iff p).2 h] at hv; cases hv
    exact Classical.not_not.1 this
  | oom a hv => exact ⟨rfl, .inr ⟨rfl, fun h => hamp h rfl⟩⟩
  | noObj a hv h => rw [ho] at h; cases h
  | rejected a o' hv ho' hd =>
    rw [ho] at ho'; cases ho'
    refine ⟨o, hself, wf hv, ?_, fun _ => rfl, nofun, fun _ _ => rfl, rfl, rfl, rfl⟩
    constructor
    · nofun
    · intro h; exact absurd h ((decide_none_iff _ _ _ hv).1 hd)
  | nothing a o' hv ho' hd =>
    rw [ho] at ho'; cases ho'
    have ha : EsAccepts o.extensible p (o.getOwn k) := by
      apply Classical.not_not.1
      intro h
      rw [(decide_none_iff _ _ _ hv).2 h] at hd; cases hd
    obtain ⟨c, hc, he⟩ := decide_some_none hd
    refine ⟨o, hself, wf hv, ⟨fun _ => ha, fun _ => rfl⟩, nofun, fun _ => ⟨c, hc, ?_⟩, fun _ _ => rfl, rfl, rfl, rfl⟩
    rw [hc]; exact EsResult.same_of_empty he
  | wrong a o' d e hv ho' hd hn =>
    rw [ho] at ho'; cases ho'
    simp [Obj.newArrayLength, hord] at hn
  | wrote a o' d nl hv ho' hd hn =>
    rw [ho] at ho'; cases ho'
    have ha : EsAccepts o.extensible p (o.getOwn k) := by
      apply Classical.not_not.1
      intro h
      rw [(decide_none_iff _ _ _ hv).2 h] at hd; cases hd
    obtain ⟨_, he⟩ := defined_ordinary hord hn
    have hr := (decide_some_some hv hd).2
    refine ⟨_, rfl, wf hv, ⟨fun _ => ha, fun _ => rfl⟩, nofun, fun _ => ⟨d, ?_, hr⟩, ?_, ?_⟩
    · rw [he]; simp [Obj.getOwn, lookup_writeProps]
    · intro k' hk
      rw [he]; simp [Obj.getOwn, lookup_writeProps, hk]
    · rw [he]; exact ⟨rfl, rfl, rfl⟩

/-- Redefining a read-only, non-configurable property with another value is rejected … -/
example : (step (.define 0 (.sym 1) { value := some (.bool true) })
    ⟨[⟨none, true, [⟨.sym 1, ⟨false, false, .data (.bool false) false⟩⟩], none⟩], []⟩).1 = .bool false := by decide
/-- … and turning a configurable data property into an accessor is accepted. -/
example : (step (.define 0 (.sym 1) { get := some (.object 0) })
    ⟨[⟨none, true, [⟨.sym 1, ⟨true, true, .data (.bool false) false⟩⟩], none⟩], []⟩).2.objs =
    [⟨none, true, [⟨.sym 1, ⟨true, true, .accessor (.object 0) .undefined⟩⟩], none⟩] := by decide

/-! ## C10 Non-configurable properties -/

/-- C10: between any two points of any history every non-configurable property survives, with its kind,
enumerability and – when read-only – its value. -/
theorem C10_frozen (alloc : List Bool) (ops₁ ops₂ : List Op) :
    KeepsFrozen (run ops₁ ⟨[], alloc⟩) (run ops₂ (run ops₁ ⟨[], alloc⟩)) := by
  have hs : Shape (run ops₁ ⟨[], alloc⟩) := (run_good ops₁ (shape_empty alloc)).shape
  have hg := run_good ops₂ hs
  rintro id k d ⟨o, ho, hd⟩ hc
  obtain ⟨o', ho', hf, _⟩ := hg.objs id o ho
  obtain ⟨d', hd', hfa⟩ := hf k d hd hc
  exact ⟨d', ⟨o', ho', hd'⟩, hfa⟩

/-- An object with a read-only property, and an array, exist. -/
example : Own (run [.newObject none [⟨.sym 7, ⟨true, false, .data (.bool true) false⟩⟩]] ⟨[], []⟩) 0 (.sym 7)
    ⟨true, false, .data (.bool true) false⟩ := ⟨_, rfl, by decide⟩

/-- C50: an object that is not extensible stays so and never gains a property. -/
theorem C50_not_extensible (alloc : List Bool) (ops₁ ops₂ : List Op) :
    KeepsSealed (run ops₁ ⟨[], alloc⟩) (run ops₂ (run ops₁ ⟨[], alloc⟩)) := by
  have hs : Shape (run ops₁ ⟨[], alloc⟩) := (run_good ops₁ (shape_empty alloc)).shape
  have hg := run_good ops₂ hs
  intro id o ho he
  obtain ⟨o', ho', _, hse, _⟩ := hg.objs id o ho
  exact ⟨o', ho', (hse he).1, (hse he).2⟩

example : ((run [.newArray 2, .preventExtensions 0, .create 0 (.sym 3) .null] ⟨[], []⟩).objs.map (·.extensible)) = [false] := by
  decide

/-! ## C11 Array length -/

/-- C11: after every history, the length of every array is below `2^32`, is the value of its `length` property and
exceeds each of its indices – provided no write to `length` was cut short for lack of memory. -/
theorem C11_length (alloc : List Bool) (ops : List Op) (h : NoCutShort ops ⟨[], alloc⟩) :
    LengthOk (run ops ⟨[], alloc⟩) := by
  have hs : Shape (run ops ⟨[], alloc⟩) := (run_good ops (shape_empty alloc)).shape
  have hb : Bound (run ops ⟨[], alloc⟩) := run_bound ops (shape_empty alloc) (by intro o ho; cases ho) h
  rintro id n ⟨o, ho, ha⟩
  obtain ⟨h1, _, w, es, hp⟩ := (hs o (List.mem_of_getElem? ho)).cases ha
  refine ⟨h1, ⟨⟨false, false, .data (numVal n) w⟩, w, ⟨o, ho, ?_⟩, rfl, rfl⟩, ?_⟩
  · simp [Obj.getOwn, hp, lookup, lenEntry, lenKey]
  · rintro k i d hi ⟨o', ho', hd⟩
    rw [ho] at ho'; cases ho'
    exact (bound_iff ha).1 (hb o (List.mem_of_getElem? ho)) k i d ((C13_array_index k i).2 hi) hd

/-- C11 without side condition when memory suffices. -/
theorem C11_length_ample (alloc : List Bool) (ops : List Op) (h : ∀ b ∈ alloc, b = true) :
    LengthOk (run ops ⟨[], alloc⟩) :=
  C11_length alloc ops (run_ample ops (s := ⟨[], alloc⟩) h).1

/-- C11, reducing the length: a write of a smaller length to a writable `length` removes exactly the elements at or
above it, or stops at the highest non-configurable one. -/
theorem C11_shrink (alloc : List Bool) (ops : List Op) (h : NoCutShort ops ⟨[], alloc⟩) (id n l : Nat) (o : Obj)
    (ho : (run ops ⟨[], alloc⟩).objs[id]? = some o) (ha : o.arrayLen = some n)
    (hw : o.getOwn (.str lengthUnits) = some ⟨false, false, .data (numVal n) true⟩) (hl : l < n) :
    match step (.define id (.str lengthUnits) { value := some (numVal l) }) (run ops ⟨[], alloc⟩) with
    | (.bool b, s') => ∃ o', s'.objs = (run ops ⟨[], alloc⟩).objs.set id o' ∧ Shrunk l o.getOwn o'.getOwn b
    | (.err e, _) => e = .outOfMemory ∧ ¬ Ample (run ops ⟨[], alloc⟩)
    | _ => False := by
  generalize hs' : run ops ⟨[], alloc⟩ = s at ho
  have hs : Shape s := hs' ▸ (run_good ops (shape_empty alloc)).shape
  have hb : Bound s := hs' ▸ run_bound ops (shape_empty alloc) (by intro o ho; cases ho) h
  have ham := fun h => (step_ample (.define id (.str lengthUnits) { value := some (numVal l) }) (s := s) h).1
  obtain ⟨hn, _, w, es, hp⟩ := (hs o (List.mem_of_getElem? ho)).cases ha
  have hw' : w = true := by
    simp [Obj.getOwn, hp, lookup, lenEntry, lenKey] at hw
    exact hw
  subst hw'
  have key : step (.define id (.str lengthUnits) { value := some (numVal l) }) s =
      toRes .bool (defineOwn id lenKey { value := some (numVal l) } s) := rfl
  have hlv : arrayLengthFromValue (numVal l) = some l := arrayLengthFromNum_nat (by omega)
  have hrun : (∃ a, defineOwn id lenKey { value := some (numVal l) } s = (.error .outOfMemory, ⟨s.objs, a⟩)) ∨
      ∃ a, defineOwn id lenKey { value := some (numVal l) } s =
        shrink id lenKey { value := some (numVal l) } l n ⟨s.objs, a⟩ := by
    unfold defineOwn
    rw [bind_run, getObj_some ho]
    simp only [ha, Option.isSome_some, if_true]
    unfold arrayDefine
    rw [if_neg (by simp [Patch.valid, Patch.isAccessor]), bind_run]
    rcases allocate_cases s with ⟨a, h⟩ | ⟨a, h⟩
    · refine .inr ⟨a, ?_⟩
      rw [h]
      simp only
      rw [if_pos (by decide)]
      unfold arraySetLength
      simp only [hlv]
      rw [bind_run, getObj_some (s := ⟨s.objs, a⟩) ho]
      simp only [ha]
      rw [if_neg (by omega), lengthWritable_eq ha hp]
    · refine .inl ⟨a, ?_⟩
      rw [h]
  rw [key] at ham ⊢
  rcases hrun with ⟨a, hr⟩ | ⟨a, hr⟩
  · rw [hr] at ham ⊢
    exact ⟨rfl, fun h => ham h rfl⟩
  · rw [hr] at ham ⊢
    have hsh : Shape ⟨s.objs, a⟩ := hs
    have := shrink_out (p := { value := some (numVal l) }) hsh (hb o (List.mem_of_getElem? ho)) (id := id) ho ha hp hl (by simp [Patch.valid, Patch.isAccessor]) nofun
    generalize shrink id lenKey { value := some (numVal l) } l n ⟨s.objs, a⟩ = r at this ham
    cases this with
    | oom s2 => exact ⟨rfl, fun h => ham h rfl⟩
    | rejected b hnp => exact absurd ⟨nofun, nofun⟩ hnp
    | done o' b _ _ h0 h1 h2 h3 h4 =>
      refine ⟨o', rfl, ?_, h2, ?_, ?_⟩
      · intro k i d hi; exact h0 k i d ((C13_array_index k i).2 hi)
      · intro k i hi; exact h3 k i ((C13_array_index k i).2 hi)
      · intro k hk hi; exact h4 k hk fun i h => hi i ((C13_array_index k i).1 h)
    | stuck o' b m km c _ _ hm hle hkm hc h0 h1 h2 h3 h4 =>
      refine ⟨o', rfl, m, km, c, (C13_array_index km m).1 hm, hle, hkm, hc, ?_, h2, ?_, ?_⟩
      · intro k i d hi; exact h0 k i d ((C13_array_index k i).2 hi)
      · intro k i hi; exact h3 k i ((C13_array_index k i).2 hi)
      · intro k hk hi; exact h4 k hk fun i h => hi i ((C13_array_index k i).1 h)

/-- "1", "2" -/
private def k1 : Key := .str [49]
private def k2 : Key := .str [50]

/-- Elements 1 (non-configurable) and 2; setting the length to 0 leaves length 2. -/
example : ((step (.define 0 (.str lengthUnits) { value := some (numVal 0) })
    (run [.newArray 0, .define 0 k1 { value := some .null }, .create 0 k2 .null] ⟨[], []⟩)).2.objs.map
      fun o => (o.arrayLen, o.ownKeys)) = [(some 2, [k1, .str lengthUnits])] := by decide +kernel

/-- C11 is violated when memory runs out in the middle of a length write: the length is 0 but element 1 is still
there. The fifth allocation, made by the deletion of the element, fails. -/
theorem C11_out_of_memory_violated :
    ¬ LengthOk (run [.newArray 0, .create 0 k1 .null, .define 0 (.str lengthUnits) { value := some (numVal 0) }]
      ⟨[], [true, true, true, true, true, true, true, true, true, true, false]⟩) := by
  intro h
  have h2 := (h 0 0 ⟨_, rfl, by decide +kernel⟩).2.2 k1 1 ⟨true, true, .data .null true⟩
    ((C13_array_index k1 1).1 (by decide)) ⟨_, rfl, by decide +kernel⟩
  omega

/-! ## C12 Own keys -/

theorem inClass_plain {k : Key} : InClass 1 k ↔ (match k with | .str s => (stringToArrayIndex s).isNone | .sym _ => false) = true := by
  have hi : (∃ i, IsArrayIndex k i) ↔ k.arrayIndex.isSome = true := by
    rw [Option.isSome_iff_exists]
    exact exists_congr fun i => (C13_array_index k i).symm
  show ((∃ s, k = .str s) ∧ ¬ ∃ i, IsArrayIndex k i) ↔ _
  rw [hi]
  cases k with
  | str s => simp [Key.arrayIndex]
  | sym i => simp

theorem inClass_sym {k : Key} : InClass 2 k ↔ (match k with | .str _ => false | .sym _ => true) = true := by
  show (∃ id, k = .sym id) ↔ _
  cases k <;> simp

private def plainB (k : Key) : Bool := match k with | .str s => (stringToArrayIndex s).isNone | .sym _ => false
private def symB (k : Key) : Bool := match k with | .str _ => false | .sym _ => true

private theorem filter_plain (o : Obj) : o.ownKeys.filter plainB = o.keys.filter plainB := by
  rw [ownKeys_eq, List.filter_append, List.filter_append, plain_eq_filter]
  have h1 : ((sortedIndex o.props).map Prod.snd).filter plainB = [] := by
    rw [List.filter_eq_nil_iff]
    intro k hk
    obtain ⟨⟨i, k'⟩, hm, rfl⟩ := List.mem_map.1 hk
    have := (mem_sortedIndex.1 hm).2
    cases k' with
    | str s => simp only [Key.arrayIndex] at this; simp [plainB, this]
    | sym i => simp [plainB]
  have h2 : (symbolKeys o.props).filter plainB = [] := by
    rw [List.filter_eq_nil_iff]
    intro k hk
    obtain ⟨i, rfl⟩ := (mem_symbolKeys.1 hk).2
    simp [plainB]
  rw [h1, h2]
  show [] ++ List.filter plainB (List.filter plainB o.keys) ++ [] = _
  simp

private theorem filter_sym (o : Obj) : o.ownKeys.filter symB = o.keys.filter symB := by
  rw [ownKeys_eq, List.filter_append, List.filter_append, symbol_eq_filter]
  have h1 : ((sortedIndex o.props).map Prod.snd).filter symB = [] := by
    rw [List.filter_eq_nil_iff]
    intro k hk
    obtain ⟨⟨i, k'⟩, hm, rfl⟩ := List.mem_map.1 hk
    have := (mem_sortedIndex.1 hm).2
    cases k' with
    | str s => simp [symB]
    | sym i => cases this
  have h2 : (plainStringKeys o.props).filter symB = [] := by
    rw [List.filter_eq_nil_iff]
    intro k hk
    obtain ⟨_, ⟨s, rfl⟩, _⟩ := mem_plainStringKeys.1 hk
    simp [symB]
  rw [h1, h2]
  show [] ++ [] ++ List.filter symB (List.filter symB o.keys) = _
  simp

private theorem before_keys {o : Obj} {a b : Key} (h : InClass 1 a ∧ InClass 1 b ∨ InClass 2 a ∧ InClass 2 b) :
    Before a b o.ownKeys ↔ [a, b].Sublist o.keys := by
  rcases h with ⟨h1, h2⟩ | ⟨h1, h2⟩
  · have h1 : plainB a = true := inClass_plain.1 h1
    have h2 : plainB b = true := inClass_plain.1 h2
    unfold Before
    rw [before_filter h1 h2, filter_plain, ← before_filter h1 h2]
  · have h1 : symB a = true := inClass_sym.1 h1
    have h2 : symB b = true := inClass_sym.1 h2
    unfold Before
    rw [before_filter h1 h2, filter_sym, ← before_filter h1 h2]

/-- the class of a key, as a number -/
private def clsOf (k : Key) : Nat := if k.arrayIndex.isSome then 0 else match k with | .str _ => 1 | .sym _ => 2

private theorem clsOf_eq {c : Nat} {k : Key} (hc : c ≤ 2) (h : InClass c k) : c = clsOf k := by
  have hi : (∃ i, IsArrayIndex k i) ↔ k.arrayIndex.isSome = true := by
    rw [Option.isSome_iff_exists]
    exact exists_congr fun i => (C13_array_index k i).symm
  match c, hc, h with
  | 0, _, h => simp [clsOf, hi.1 h]
  | 1, _, ⟨⟨s, hs⟩, h⟩ =>
    rw [hi] at h
    subst hs
    simp only [Bool.not_eq_true] at h
    simp [clsOf, h]
  | 2, _, ⟨i, hs⟩ => subst hs; rfl

private theorem ownKeys_sorted_cls (o : Obj) : o.ownKeys.Pairwise fun a b => clsOf a ≤ clsOf b := by
  have c0 : ∀ k ∈ (sortedIndex o.props).map Prod.snd, clsOf k = 0 := by
    intro k hk
    obtain ⟨⟨i, k'⟩, hm, rfl⟩ := List.mem_map.1 hk
    have := (mem_sortedIndex.1 hm).2
    simp [clsOf, this]
  have c1 : ∀ k ∈ plainStringKeys o.props, clsOf k = 1 := by
    intro k hk
    obtain ⟨_, ⟨s, rfl⟩, h⟩ := mem_plainStringKeys.1 hk
    simp [clsOf, h]
  have c2 : ∀ k ∈ symbolKeys o.props, clsOf k = 2 := by
    intro k hk
    obtain ⟨i, rfl⟩ := (mem_symbolKeys.1 hk).2
    rfl
  have const : ∀ (l : List Key) (n : Nat), (∀ k ∈ l, clsOf k = n) → l.Pairwise fun a b => clsOf a ≤ clsOf b := by
    intro l n h
    rw [List.pairwise_iff_forall_sublist]
    intro a b hab
    rw [h a (hab.subset (by simp)), h b (hab.subset (by simp))]
    exact Nat.le_refl n
  rw [ownKeys_eq, List.pairwise_append, List.pairwise_append]
  refine ⟨⟨const _ 0 c0, const _ 1 c1, ?_⟩, const _ 2 c2, ?_⟩
  · intro a ha b hb; rw [c0 a ha, c1 b hb]; omega
  · intro a ha b hb
    rw [c2 b hb]
    rcases List.mem_append.1 ha with ha | ha
    · rw [c0 a ha]; omega
    · rw [c1 a ha]; omega

private theorem ownKeys_classes (o : Obj) {a b : Key} (hab : Before a b o.ownKeys) {c c' : Nat} (hc2 : c ≤ 2) (hc2' : c' ≤ 2)
    (hc : InClass c a) (hc' : InClass c' b) : c ≤ c' := by
  rw [clsOf_eq hc2 hc, clsOf_eq hc2' hc']
  exact List.pairwise_iff_forall_sublist.1 (ownKeys_sorted_cls o) hab

/-- C12, what is listed: exactly the own keys. -/
theorem C12_complete (o : Obj) (k : Key) : k ∈ o.ownKeys ↔ o.getOwn k ≠ none := by
  rw [mem_ownKeys, Ne, getOwn_none_iff, Classical.not_not]; rfl

private theorem distinct_run (ops : List Op) (hd : DistinctInit ops) {s : Store} (hs : Shape s)
    (h : ∀ o ∈ s.objs, (Obj.keys o).Nodup) : ∀ o ∈ (run ops s).objs, (Obj.keys o).Nodup := by
  induction ops generalizing s with
  | nil => exact h
  | cons op ops ih =>
    refine ih (fun p es hm => hd p es (List.mem_cons_of_mem _ hm)) (step_good op hs).shape ?_
    intro o' ho'
    obtain ⟨id, hid⟩ := List.mem_iff_getElem?.1 ho'
    cases hold : s.objs[id]? with
    | some o =>
      obtain ⟨k, hk⟩ := step_keys op hs
      obtain ⟨o2, ho2, hr⟩ := hk id o hold
      rw [hid] at ho2; cases ho2
      have hn := h o (List.mem_of_getElem? hold)
      rcases hr with hr | ⟨hk, hr⟩
      · exact hn.sublist hr
      · rw [hr, List.nodup_append]
        refine ⟨hn, by simp, ?_⟩
        intro a ha b hb
        rw [List.mem_singleton] at hb
        rintro rfl
        exact hk (hb ▸ ha)
    | none =>
      obtain ⟨x, hx⟩ | hlen := step_new op s
      · rw [hx.1] at hid
        have hge : s.objs.length ≤ id := by rw [List.getElem?_eq_none_iff] at hold; exact hold
        rw [List.getElem?_append_right hge] at hid
        have hxo : o' = x := by
          cases hj : id - s.objs.length with
          | zero => rw [hj] at hid; simpa using hid.symm
          | succ j => rw [hj] at hid; simp at hid
        subst hxo
        rcases hx.2 with ⟨p, es, rfl, rfl⟩ | ⟨n, rfl, rfl⟩
        · exact hd p es List.mem_cons_self
        · simp [Obj.keys, newArray]
      · have : id < s.objs.length := by
          rw [← hlen]; exact (List.getElem?_eq_some_iff.1 hid).1
        rw [List.getElem?_eq_none_iff] at hold; omega

/-- C12, order and multiplicity: after every history whose initial property lists name no key twice, every object
lists each own key once, array indices ascending, then the other strings, then the symbols. -/
theorem C12_order (alloc : List Bool) (ops : List Op) (hd : DistinctInit ops) (id : Nat) (o : Obj)
    (ho : (run ops ⟨[], alloc⟩).objs[id]? = some o) : o.ownKeys.Nodup ∧ Ordered o.ownKeys := by
  have hn := distinct_run ops hd (shape_empty alloc) (by intro o ho; cases ho) o (List.mem_of_getElem? ho)
  refine ⟨ownKeys_nodup hn, ?_⟩
  intro a b hab
  constructor
  · intro c c' hc2 hc2' hc hc'
    exact ownKeys_classes o hab hc2 hc2' hc hc'
  · intro i j hi hj
    have := ownKeys_index_sorted hn
    rw [List.pairwise_iff_forall_sublist] at this
    exact this hab i j ((C13_array_index a i).2 hi) ((C13_array_index b j).2 hj)

/-- C12, creation order: in every reachable store, an operation keeps the listed order of the string and symbol keys
an object has and lists a key it creates last in its class. -/
theorem C12_creation_order (alloc : List Bool) (ops : List Op) (op : Op) (id : Nat) (o o' : Obj)
    (ho : (run ops ⟨[], alloc⟩).objs[id]? = some o) (ho' : (step op (run ops ⟨[], alloc⟩)).2.objs[id]? = some o') :
    CreationOrder o.ownKeys o'.ownKeys := by
  have hs : Shape (run ops ⟨[], alloc⟩) := (run_good ops (shape_empty alloc)).shape
  obtain ⟨k, hk⟩ := step_keys op hs
  obtain ⟨o2, ho2, hr⟩ := hk id o ho
  rw [ho'] at ho2; cases ho2
  have hmem : ∀ x, x ∈ o.ownKeys ↔ x ∈ o.keys := fun x => mem_ownKeys
  intro a b hab hb
  have hin : [a, b].Sublist o'.keys := (before_keys hab).1 hb
  have hcore : a ∈ o.keys ∧ (b ∈ o.keys → [a, b].Sublist o.keys) := by
    rcases hr with hr | ⟨hk, hr⟩
    · have h := hin.trans hr
      exact ⟨h.subset (by simp), fun _ => h⟩
    · rw [hr] at hin
      rcases pair_sublist_append hin with h | ⟨h, rfl⟩
      · exact ⟨h.subset (by simp), fun _ => h⟩
      · exact ⟨h, fun hb => absurd hb hk⟩
  refine ⟨(hmem a).2 hcore.1, fun hb => (before_keys hab).2 (hcore.2 ((hmem b).1 hb))⟩

/-- Keys created as `length`, symbol 9, "2", "a", "1": listed 1, 2, length, a, symbol. -/
example : ((run [.newArray 0, .create 0 (.sym 9) .null, .create 0 k2 .null, .create 0 (.str [97]) .null,
    .create 0 k1 .null] ⟨[], []⟩).objs.map Obj.ownKeys) =
    [[k1, k2, .str lengthUnits, .str [97], .sym 9]] := by decide +kernel

/-- Why C12 asks for distinct initial keys: `alloc_object_with_properties` accepts a key twice, and it is then
listed twice (and still present after a deletion). -/
theorem C12_duplicate_initial_keys_violated :
    ¬ ∀ (ops : List Op) (id : Nat) (o : Obj), (run ops ⟨[], []⟩).objs[id]? = some o → o.ownKeys.Nodup := by
  intro h
  have := h [.newObject none [⟨.sym 1, ⟨true, true, .data .null true⟩⟩, ⟨.sym 1, ⟨true, true, .data .undefined true⟩⟩]] 0 _ rfl
  revert this
  decide +kernel

end Verif.Objects
