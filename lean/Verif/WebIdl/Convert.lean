import Verif.WebIdl.Lemmas

/-! # The conversions are those of Web IDL -/

namespace Verif.WebIdl

variable {σ ε V S N Y : Type} (R : Rt σ ε V S N Y)

/-! ## The steps for unions, with plain searches -/

/-- `unionString` for a converter of types. -/
theorem unionString_eq {types : List Ty} (C : Conv σ ε V S N Ty) (v : V) :
    unionString (types := types) R (fun t => C t.1) v =
      match types.find? Ty.isString with
      | some t => pick t (C t none none v)
      | none => throwType R := by
  unfold unionString
  exact match_attach Ty.isString types (fun t => pick t (C t none none v)) _

theorem unionFrozen_eq {types : List Ty} (C : Conv σ ε V S N Ty) (v : V) :
    unionFrozen (types := types) R (fun t => C t.1) v =
      match types.find? Ty.isFrozen with
      | some t => do
        match ← methodOf R v .iterator with
        | some m => pick t (C t (some m) none v)
        | none => unionString (types := types) R (fun t => C t.1) v
      | none => unionString (types := types) R (fun t => C t.1) v := by
  conv => lhs; unfold unionFrozen
  exact match_attach Ty.isFrozen types (fun t => do
    match ← methodOf R v .iterator with
    | some m => pick t (C t (some m) none v)
    | none => unionString (types := types) R (fun t => C t.1) v) _

theorem unionSequence_eq {types : List Ty} (C : Conv σ ε V S N Ty) (v : V) :
    unionSequence (types := types) R (fun t => C t.1) v =
      match types.find? Ty.isSequence with
      | some t => do
        match ← methodOf R v .iterator with
        | some m => pick t (C t (some m) none v)
        | none => unionFrozen (types := types) R (fun t => C t.1) v
      | none => unionFrozen (types := types) R (fun t => C t.1) v := by
  conv => lhs; unfold unionSequence
  exact match_attach Ty.isSequence types (fun t => do
    match ← methodOf R v .iterator with
    | some m => pick t (C t (some m) none v)
    | none => unionFrozen (types := types) R (fun t => C t.1) v) _

theorem unionAsync_eq {types : List Ty} (C : Conv σ ε V S N Ty) (v : V) :
    unionAsync (types := types) R (fun t => C t.1) v =
      match types.find? Ty.isAsync with
      | some t =>
        if !(types.any (containsTy Ty.isString)) || !R.isStringObject v then do
          match ← methodOf R v .asyncIterator with
          | some m => pick t (C t none (some (.async m)) v)
          | none => do
            match ← methodOf R v .iterator with
            | some m => pick t (C t none (some (.sync m)) v)
            | none => unionSequence (types := types) R (fun t => C t.1) v
        else unionSequence (types := types) R (fun t => C t.1) v
      | none => unionSequence (types := types) R (fun t => C t.1) v := by
  conv => lhs; unfold unionAsync
  exact match_attach Ty.isAsync types (fun t =>
    if !(types.any (containsTy Ty.isString)) || !R.isStringObject v then do
      match ← methodOf R v .asyncIterator with
      | some m => pick t (C t none (some (.async m)) v)
      | none => do
        match ← methodOf R v .iterator with
        | some m => pick t (C t none (some (.sync m)) v)
        | none => unionSequence (types := types) R (fun t => C t.1) v
    else unionSequence (types := types) R (fun t => C t.1) v) _

/-! ## Kinds -/

theorem isString_kind : Ty.isString = fun t => decide (t.kind = .string) := by
  funext t; cases t <;> rfl

theorem isAsync_kind : Ty.isAsync = fun t => decide (t.kind = .async) := by
  funext t; cases t <;> rfl

theorem isSequence_kind : Ty.isSequence = fun t => decide (t.kind = .sequence) := by
  funext t; cases t <;> rfl

theorem isFrozen_kind : Ty.isFrozen = fun t => decide (t.kind = .frozen) := by
  funext t; cases t <;> rfl

/-- Among types that are neither unions nor nullable, looking into them for strings is looking
for strings. -/
theorem any_string (types : List Ty) (hu : ∀ t ∈ types, t.kind ≠ .union)
    (hn : ∀ t ∈ types, t.kind ≠ .nullable) :
    types.any (containsTy Ty.isString) = (firstOf .string types).isSome := by
  unfold firstOf
  rw [Bool.eq_iff_iff, List.any_eq_true, List.find?_isSome]
  constructor
  · rintro ⟨t, ht, h⟩
    refine ⟨t, ht, ?_⟩
    have h1 := hu t ht
    have h2 := hn t ht
    cases t <;> simp_all [containsTy, Ty.isString, Ty.kind]
  · rintro ⟨t, ht, h⟩
    refine ⟨t, ht, ?_⟩
    cases t <;> simp_all [containsTy, Ty.isString, Ty.kind]

theorem firstOf_some {k : Kind} {ts : List Ty} {t : Ty} (h : firstOf k ts = some t) :
    t ∈ ts ∧ t.kind = k := by
  unfold firstOf at h
  exact ⟨List.mem_of_find?_eq_some h, by simpa using List.find?_some h⟩

/-! ## Unions -/

/-- The converter with hints on each kind of member. -/
theorem convH_seq (e : Ty) (v m : V) (h : R.isObject v = true) :
    convH R (.sequence e) (some m) none v =
      sequenceFrom R (convert R e) v m >>= fun xs => pure (.sequence xs) := by
  rw [convH]
  simp only [seqMethod, pure_bind']
  rw [createSequence_eq _ v m h]
  rfl

theorem convH_frozen (e : Ty) (v m : V) (h : R.isObject v = true) :
    convH R (.frozenArray e) (some m) none v =
      sequenceFrom R (convert R e) v m >>= fun xs => frozenFrom R (toJs R e) xs >>= fun arr =>
        pure (.frozenArray arr) := by
  rw [convH]
  simp only [seqMethod, pure_bind']
  rw [← bind_assoc', frozen_tail _ e v m h, bind_assoc']
  rfl

theorem convH_async (e : Ty) (v : V) (a : AHint V) (h : R.isObject v = true) :
    convH R (.asyncSequence e) none (some a) v = pure (asyncVal v a) := by
  rw [convH, if_pos h]
  rfl

mutual
theorem flat_members : ∀ t u, u ∈ flat t → u.kind ≠ .nullable → u ∈ members t
  | .union ms, u, h, hk => by
    simp only [members]
    exact flats_members ms u (by simpa [flat] using h) hk
  | .nullable t, u, h, hk => by simp [flat] at h; simp [h, Ty.kind] at hk
  | .undefined, u, h, _ => h
  | .boolean, u, h, _ => h
  | .double, u, h, _ => h
  | .domString, u, h, _ => h
  | .object, u, h, _ => h
  | .sequence t, u, h, _ => h
  | .asyncSequence t, u, h, _ => h
  | .frozenArray t, u, h, _ => h
theorem flats_members : ∀ ms u, u ∈ flats ms → u.kind ≠ .nullable → u ∈ membersL ms
  | [], u, h, _ => by simp [flats] at h
  | m :: ms, u, h, hk => by
    simp only [membersL]
    rcases List.mem_append.mp (by simpa [flats] using h) with h | h
    · exact List.mem_append_left _ (flat_members m u h hk)
    · exact List.mem_append_right _ (flats_members ms u h hk)
end

theorem primitive_eq (ts : List Ty) (v : V)
    (hn : firstOf .numeric ts = none ∨
      ((firstOf .string ts).isSome = true ∧ R.isNumber v = false))
    (hb : firstOf .boolean ts = none ∨
      ((firstOf .string ts).isSome = true ∧ R.isBoolean v = false)) :
    unionString (types := ts) R (fun t => convH R t.1) v = primitiveStep R (convert R) ts v := by
  rw [unionString_eq R (convH R) v, isString_kind]
  unfold primitiveStep
  show (match firstOf .string ts with
      | some t => pick t (convH R t none none v)
      | none => throwType R) = _
  have h : ((if R.isBoolean v then firstOf .boolean ts else none)
      <|> (if R.isNumber v then firstOf .numeric ts else none)
      <|> firstOf .string ts <|> firstOf .numeric ts <|> firstOf .boolean ts) =
      firstOf .string ts := by
    cases hs : firstOf .string ts with
    | none =>
      rw [hs] at hn hb
      simp only [Option.isSome_none, Bool.false_eq_true, false_and, or_false] at hn hb
      simp [hn, hb]
    | some t =>
      have h1 : (if R.isBoolean v then firstOf .boolean ts else none) = none := by
        rcases hb with h | h
        · simp [h]
        · simp [h.2]
      have h2 : (if R.isNumber v then firstOf .numeric ts else none) = none := by
        rcases hn with h | h
        · simp [h]
        · simp [h.2]
      rw [h1, h2]
      rfl
  rw [h]
  rfl

theorem object_eq (ts : List Ty) (v : V) (hv : R.isObject v = true)
    (hk : ∀ t ∈ ts, t.kind ≠ .union ∧ t.kind ≠ .nullable)
    (ho : firstOf .object ts = none) (last : M σ ε (Val V S N))
    (hl : unionString (types := ts) R (fun t => convH R t.1) v = last) :
    unionAsync (types := ts) R (fun t => convH R t.1) v =
      asyncStep R ts v (sequenceStep R (convert R) ts v
        (frozenStep R (convert R) (toJs R) ts v (objectStep ts v last))) := by
  have e1 : unionFrozen (types := ts) R (fun t => convH R t.1) v =
      frozenStep R (convert R) (toJs R) ts v (objectStep ts v last) := by
    rw [unionFrozen_eq R (convH R) v, hl]
    unfold frozenStep objectStep
    rw [ho, isFrozen_kind]
    show (match firstOf .frozen ts with
      | some t => _
      | none => last) = _
    cases h : firstOf .frozen ts with
    | none => rfl
    | some t =>
      have hk := (firstOf_some h).2
      cases t <;> simp [Ty.kind] at hk
      rename_i e
      show methodOf R v .iterator >>= _ = lookup R v .iterator >>= _
      congr 1
      funext o
      cases o with
      | none => rfl
      | some m =>
        simp only [pick, convH_frozen R e v m hv, bind_assoc', pure_bind']
  have e2 : unionSequence (types := ts) R (fun t => convH R t.1) v =
      sequenceStep R (convert R) ts v
        (frozenStep R (convert R) (toJs R) ts v (objectStep ts v last)) := by
    rw [unionSequence_eq R (convH R) v, e1]
    generalize frozenStep R (convert R) (toJs R) ts v (objectStep ts v last) = next
    unfold sequenceStep
    rw [isSequence_kind]
    show (match firstOf .sequence ts with
      | some t => _
      | none => next) = _
    cases h : firstOf .sequence ts with
    | none => rfl
    | some t =>
      have hk := (firstOf_some h).2
      cases t <;> simp [Ty.kind] at hk
      rename_i e
      show methodOf R v .iterator >>= _ = lookup R v .iterator >>= _
      congr 1
      funext o
      cases o with
      | none => rfl
      | some m =>
        simp only [pick, convH_seq R e v m hv, bind_assoc', pure_bind']
  rw [unionAsync_eq R (convH R) v, e2, any_string ts (fun t h => (hk t h).1) (fun t h => (hk t h).2)]
  generalize sequenceStep R (convert R) ts v
        (frozenStep R (convert R) (toJs R) ts v (objectStep ts v last)) = next
  unfold asyncStep
  rw [isAsync_kind]
  show (match firstOf .async ts with
    | some t => _
    | none => next) = _
  cases h : firstOf .async ts with
  | none => rfl
  | some t =>
    have hk := (firstOf_some h).2
    cases t <;> simp [Ty.kind] at hk
    rename_i e
    show (if _ then _ else _) = (if _ then _ else _)
    by_cases hc : (firstOf .string ts).isSome = true ∧ R.isStringObject v = true
    · rw [if_pos hc, if_neg (by simp [hc.1, hc.2])]
    · rw [if_neg hc, if_pos (by
        rcases Bool.eq_false_or_eq_true (firstOf .string ts).isSome with h1 | h1
        · rcases Bool.eq_false_or_eq_true (R.isStringObject v) with h2 | h2
          · exact absurd ⟨h1, h2⟩ hc
          · simp [h2]
        · simp [h1])]
      show methodOf R v .asyncIterator >>= _ = lookup R v .asyncIterator >>= _
      congr 1
      funext o
      cases o with
      | some m =>
        simp only [pick, convH_async R e v _ hv, pure_bind']
        rfl
      | none =>
        show methodOf R v .iterator >>= _ = lookup R v .iterator >>= _
        congr 1
        funext o
        cases o with
        | some m =>
          simp only [pick, convH_async R e v _ hv, pure_bind']
          rfl
        | none => rfl

theorem union_eq (ms : List Ty) (v : V) (hf : UnionFits R ms v) :
    convert R (.union ms) v = unionSpec R (convert R) (toJs R) ms v := by
  unfold convert
  rw [convH]
  unfold unionWith unionSpec
  rw [show includesUndefined (.union ms) = (firstOf .undefined (flats ms)).isSome from
    anyUndefined_iff ms, ← nullableL_find]
  by_cases hnull : Nullish R v ∧ nullableOfL ms ≠ none
  · obtain ⟨hv, hnn⟩ := hnull
    have hu : firstOf .undefined (membersL ms) = none := by
      rcases hf.nullable with h | h
      · exact absurd h hnn
      · exact h.2
    have hu' : firstOf .undefined (flats ms) = none := by
      cases h : firstOf .undefined (flats ms) with
      | none => rfl
      | some t =>
        obtain ⟨h1, h2⟩ := firstOf_some h
        have := flats_members ms t h1 (by rw [h2]; decide)
        unfold firstOf at hu
        exact absurd h2 (by simpa using List.find?_eq_none.mp hu t this)
    obtain ⟨t, ht⟩ := Option.ne_none_iff_exists'.mp hnn
    dsimp only
    have hv' : (R.isNull v || R.isUndefined v) = true := by simpa [Nullish] using hv
    rw [hu', hu, ht, if_pos hv, if_pos hv']
    simp
  · have hnn : nullableOfL ms = none := by
      rcases hf.nullable with h | h
      · exact h
      · exact Classical.byContradiction fun hc => hnull ⟨h.1, hc⟩
    have hm := membersL_flats ms hnn
    have hfo := hf.object
    have hfn := hf.numeric
    have hfb := hf.boolean
    rw [hm] at hfo hfn hfb
    simp only [hm, hnn, ite_self]
    have hp := primitive_eq R (flats ms) v hfn hfb
    by_cases hu : (firstOf .undefined (flats ms)).isSome = true ∧ R.isUndefined v = true
    · rw [if_pos hu, if_pos (by simp [hu.1, hu.2])]
    · rw [if_neg hu, if_neg (by simpa using hu)]
      by_cases hv : R.isObject v = true
      · rw [if_pos hv, if_pos hv]
        refine object_eq R (flats ms) v hv ?_ ?_ _ hp
        · intro t ht
          refine ⟨flats_kind ms t ht, fun hk => ?_⟩
          have := nullableL_find ms
          rw [hnn, eq_comm, List.find?_eq_none] at this
          have := this t ht
          cases t <;> simp_all [Ty.kind, Ty.isNullable]
        · rcases hfo with h | h
          · exact h
          · rw [h] at hv; cases hv
      · rw [if_neg hv, if_neg hv]
        exact hp

theorem follows : Follows R (convert R) (toJs R) where
  undefined v := by unfold convert; rw [convH]
  boolean v := by unfold convert; rw [convH]
  double v := by unfold convert; rw [convH]
  domString v := by unfold convert; rw [convH]
  object v := by unfold convert; rw [convH]
  sequence e v := by
    conv => lhs; unfold convert
    rw [convH]
    simp only [seqMethod]
    by_cases h : R.isObject v = true
    · rw [if_pos h, if_pos h, bind_assoc']
      show methodOf R v .iterator >>= _ = lookup R v .iterator >>= _
      congr 1
      funext o
      cases o with
      | none => rfl
      | some m =>
        simp only [pure_bind']
        rw [createSequence_eq _ v m h]
        rfl
    · rw [if_neg h, if_neg h]; rfl
  frozenArray e v := by
    conv => lhs; unfold convert
    rw [convH]
    simp only [seqMethod]
    by_cases h : R.isObject v = true
    · rw [if_pos h, if_pos h, bind_assoc']
      show methodOf R v .iterator >>= _ = lookup R v .iterator >>= _
      congr 1
      funext o
      cases o with
      | none => rfl
      | some m =>
        simp only [pure_bind']
        rw [← bind_assoc', frozen_tail _ e v m h, bind_assoc']
        rfl
    · rw [if_neg h, if_neg h]; rfl
  asyncSequence e v := by
    unfold convert
    rw [convH]
    by_cases h : R.isObject v = true
    · rw [if_pos h, if_pos h]
      simp only [asyncMethod, bind_assoc']
      show methodOf R v .asyncIterator >>= _ = lookup R v .asyncIterator >>= _
      congr 1
      funext o
      cases o with
      | some m => rfl
      | none =>
        simp only [bind_assoc']
        show methodOf R v .iterator >>= _ = lookup R v .iterator >>= _
        congr 1
        funext o
        cases o <;> rfl
    · rw [if_neg h, if_neg h]
  nullable e v := by
    unfold convert
    rw [convH]
    by_cases h : Nullish R v
    · rw [if_pos h, if_pos (by simpa [Nullish] using h)]
    · rw [if_neg h, if_neg (by simpa [Nullish] using h)]
  union := union_eq R

/-! ## Types -/

theorem pick_ensures {ms : List Ty} {t : Ty} {m : M σ ε (Val V S N)} (ht : t ∈ flats ms)
    (hm : Ensures m (HasType R t)) : Ensures (pick t m) (HasType R (.union ms)) :=
  hm.bind fun _ hx => .ret (.union (flats_member ms t ht) hx)

theorem union_ensures (ms : List Ty) (und : Bool) (v : V)
    (hund : und = true → .undefined ∈ flats ms)
    (C : Conv σ ε V S N {t : Ty // t ∈ flats ms})
    (hC : ∀ t a b w, Ensures (C t a b w) (HasType R t.1)) :
    Ensures (unionWith R und C v) (HasType R (.union ms)) := by
  have h1 : Ensures (unionString R C v) (HasType R (.union ms)) := by
    unfold unionString
    split
    · exact pick_ensures R (Subtype.property _) (hC _ _ _ _)
    · exact .throw
  have h2 : Ensures (unionFrozen R C v) (HasType R (.union ms)) := by
    unfold unionFrozen
    split
    · refine .then fun o => ?_
      cases o with
      | some m => exact pick_ensures R (Subtype.property _) (hC _ _ _ _)
      | none => exact h1
    · exact h1
  have h3 : Ensures (unionSequence R C v) (HasType R (.union ms)) := by
    unfold unionSequence
    split
    · refine .then fun o => ?_
      cases o with
      | some m => exact pick_ensures R (Subtype.property _) (hC _ _ _ _)
      | none => exact h2
    · exact h2
  have h4 : Ensures (unionAsync R C v) (HasType R (.union ms)) := by
    unfold unionAsync
    split
    · split
      · refine .then fun o => ?_
        cases o with
        | some m => exact pick_ensures R (Subtype.property _) (hC _ _ _ _)
        | none =>
          refine .then fun o => ?_
          cases o with
          | some m => exact pick_ensures R (Subtype.property _) (hC _ _ _ _)
          | none => exact h3
      · exact h3
    · exact h3
  unfold unionWith
  split
  · rename_i h
    refine .ret (.union (flats_member ms _ (hund ?_)) .undefined)
    simp only [Bool.and_eq_true] at h
    exact h.1
  · split
    · rename_i t h
      split at h
      · have hk := List.find?_some h
        have hm := List.mem_of_find?_eq_some h
        cases t <;> simp [Ty.isNullable] at hk
        exact .ret (.union (flats_member ms _ hm) .null)
      · cases h
    · split
      · exact h4
      · exact h1

theorem seqMethod_ensures (hi : Option V) (v : V) :
    Ensures (seqMethod R hi v) (fun _ => True) := .any

theorem convH_typed (n : Nat) : ∀ t, sizeOf t ≤ n → ∀ hi ha v,
    Ensures (convH R t hi ha v) (HasType R t) := by
  induction n with
  | zero => intro t ht; cases t <;> simp at ht
  | succ n ih =>
    intro t ht hi ha v
    cases t with
    | undefined =>
      rw [convH]
      split
      · exact .ret .undefined
      · exact .throw
    | boolean => rw [convH]; exact .then fun b => .ret (.boolean b)
    | double => rw [convH]; exact .then fun b => .ret (.double b)
    | domString => rw [convH]; exact .then fun b => .ret (.domString b)
    | object =>
      rw [convH]
      split
      · exact .ret (.object ‹_›)
      · exact .throw
    | sequence e =>
      rw [convH]
      simp only [Ty.sequence.sizeOf_spec] at ht
      exact .then fun m => (createSequence_ensures _ (HasType R e)
        (fun w => ih e (by omega) none none w) v m).bind fun xs h => .ret (.sequence h.1 h.2)
    | frozenArray e =>
      rw [convH]
      exact .then fun m => .then fun xs => .then fun arr => .ret (.frozenArray arr)
    | asyncSequence e =>
      rw [convH]
      split
      · refine .then fun h => .ret ?_
        cases h <;> exact .asyncSequence ‹_›
      · exact .throw
    | union ms =>
      rw [convH]
      simp only [Ty.union.sizeOf_spec] at ht
      refine union_ensures R ms _ v ?_ _ fun u a b w => ih u.1 ?_ a b w
      · intro h
        rw [show includesUndefined (.union ms) = (firstOf .undefined (flats ms)).isSome from
          anyUndefined_iff ms] at h
        obtain ⟨t, h⟩ := Option.isSome_iff_exists.mp h
        obtain ⟨h1, h2⟩ := firstOf_some h
        cases t <;> simp [Ty.kind] at h2
        exact h1
      · have := flats_lt ms u.1 u.2
        omega
    | nullable e =>
      rw [convH]
      simp only [Ty.nullable.sizeOf_spec] at ht
      split
      · exact .ret .null
      · exact (ih e (by omega) none none v).mono fun x h => .some h

theorem NoNullable.member {ms : List Ty} {m : Ty} (h : Member m ms)
    (hn : ∀ t ∈ ms, NoNullable t) : NoNullable m := by
  induction h with
  | here h => exact hn _ h
  | inner h _ ih => exact ih (by cases hn _ h with | union h => exact h)

theorem putAll_returns (hR : NoThrow R) (arr : V) (js : List V) : ∀ i,
    Returns (putAll R arr i js) := by
  induction js with
  | nil => intro i; exact .ret
  | cons x xs ih =>
    intro i
    exact (hR.string _).bind fun _ => (hR.create _ _ _).bind fun _ => ih _

theorem inOrder_returns {α β : Type} (D : α → M σ ε β) (xs : List α)
    (h : ∀ x ∈ xs, Returns (D x)) : Returns (inOrder D xs) := by
  induction xs with
  | nil => exact .ret
  | cons x xs ih =>
    exact (h x (by simp)).bind fun _ =>
      (ih fun y hy => h y (List.mem_cons_of_mem _ hy)).bind fun _ => .ret

theorem toJs_returns (hR : NoThrow R) {t : Ty} {x : Val V S N} (h : HasType R t x) :
    NoNullable t → Returns (toJs R t x) := by
  induction h with
  | undefined => intro _; rw [toJs]; exact .ret
  | boolean => intro _; rw [toJs]; exact .ret
  | double => intro _; rw [toJs]; exact .ret
  | domString => intro _; rw [toJs]; exact .ret
  | object => intro _; rw [toJs]; exact .ret
  | asyncSequence => intro _; rw [toJs]; exact .ret
  | frozenArray => intro _; rw [toJs]; exact .ret
  | null => intro hn; cases hn
  | some _ _ => intro hn; cases hn
  | union hm _ ih =>
    intro hn
    rw [toJs]
    cases hn with
    | union hn => exact ih (NoNullable.member hm hn)
  | sequence _ _ ih =>
    intro hn
    cases hn with
    | sequence hn =>
      rw [toJs]
      refine Returns.bind ?_ fun js => (hR.array _).bind fun arr => ?_
      · rw [toJsAll_eq]
        exact inOrder_returns _ _ fun x hx => ih x hx hn
      · rw [fill_eq]
        exact (putAll_returns R hR _ _ _).bind fun _ => .ret

end Verif.WebIdl
