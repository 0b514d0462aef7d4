import Verif.Objects.Lemmas

namespace Verif.Objects

/-! ## Descriptors against the ECMAScript algorithm -/

theorem sameValue_iff (a b : Value) : sameValue a b = true ↔ a = b := by
  cases a <;> cases b <;> simp [sameValue]

theorem isEmpty_iff (p : Patch) : p.isEmpty = true ↔ HasNoField p := by
  rcases p with ⟨a, b, c, d, e, f⟩
  cases a <;> cases b <;> cases c <;> cases d <;> cases e <;> cases f <;> simp [Patch.isEmpty, HasNoField]

theorem isData_iff (p : Patch) : p.isData = true ↔ HasDataField p := by
  rcases p with ⟨a, b, c, d, e, f⟩
  cases c <;> cases d <;> simp [Patch.isData, HasDataField]

theorem isAccessor_iff (p : Patch) : p.isAccessor = true ↔ HasAccessorField p := by
  rcases p with ⟨a, b, c, d, e, f⟩
  cases e <;> cases f <;> simp [Patch.isAccessor, HasAccessorField]

theorem valid_iff (p : Patch) : p.valid = true ↔ ¬ (HasDataField p ∧ HasAccessorField p) := by
  rw [← isData_iff, ← isAccessor_iff]; cases hd : p.isData <;> cases ha : p.isAccessor <;> simp [Patch.valid, hd, ha]

theorem sameValue_false (a b : Value) : sameValue a b = false ↔ a ≠ b := by
  rw [Ne, ← sameValue_iff]; simp

theorem decide_none_iff (ext : Bool) (p : Patch) (cur : Option Desc) (hv : p.valid = true) :
    decideDefine ext p cur = none ↔ ¬ EsAccepts ext p cur := by
  cases cur with
  | none => cases ext <;> simp [decideDefine, EsAccepts]
  | some c =>
    rcases c with ⟨ce, cc, ck⟩
    simp only [EsAccepts, ← isEmpty_iff, ← isAccessor_iff, ← isData_iff, decideDefine]
    cases hE : p.isEmpty with
    | true => simp
    | false =>
      cases cc with
      | true => cases ck <;> simp [rejectsFlags, rejectsSwitch, rejectsValues]
      | false =>
        rcases p with ⟨a, b, c, d, e, f⟩
        cases ck <;> cases a <;> cases b <;> cases c <;> cases d <;> cases e <;> cases f <;>
          simp_all [rejectsFlags, rejectsSwitch, rejectsValues, Patch.valid, Patch.isData, Patch.isAccessor,
            Patch.isGeneric, Desc.isData, Desc.isAccessor, sameValue_false, Patch.isEmpty] <;> grind

theorem createDesc_result (p : Patch) (hv : p.valid = true) : EsResult p none (createDesc p) := by
  rcases p with ⟨a, b, c, d, e, f⟩
  cases a <;> cases b <;> cases c <;> cases d <;> cases e <;> cases f <;>
    simp_all [EsResult, createDesc, Patch.valid, Patch.isData, Patch.isAccessor, pick, HasDataField, HasAccessorField,
      dataValue, dataWritable, accGet, accSet]

theorem applyPatch_result (p : Patch) (c : Desc) (hv : p.valid = true) : EsResult p (some c) (applyPatch c p) := by
  rcases p with ⟨a, b, x, d, e, f⟩
  rcases c with ⟨ce, cc, ck⟩
  cases ck <;> cases a <;> cases b <;> cases x <;> cases d <;> cases e <;> cases f <;>
    simp_all [EsResult, applyPatch, Patch.valid, Patch.isData, Patch.isAccessor, Patch.isGeneric, pick, HasDataField,
      HasAccessorField, dataValue, dataWritable, accGet, accSet]

theorem EsResult.unique {p : Patch} {cur : Option Desc} {d d' : Desc} (h : EsResult p cur d) (h' : EsResult p cur d') :
    d = d' := by
  rcases d with ⟨e, c, k⟩
  rcases d' with ⟨e', c', k'⟩
  obtain ⟨h1, h2, h3⟩ := h
  obtain ⟨h1', h2', h3'⟩ := h'
  simp only at h1 h2 h1' h2'
  subst h1 h2 h1' h2'
  cases k <;> cases k' <;> simp only at h3 h3'
  · obtain ⟨_, _, rfl, rfl⟩ := h3; obtain ⟨_, _, rfl, rfl⟩ := h3'; rfl
  · rcases h3'.2.1 with h | h
    · exact absurd h h3.1
    · rcases h3.2.1 with h' | h'
      · exact absurd h' h3'.1
      · exact absurd h' h
  · rcases h3.2.1 with h | h
    · exact absurd h h3'.1
    · rcases h3'.2.1 with h' | h'
      · exact absurd h' h3.1
      · exact absurd h' h
  · obtain ⟨_, _, rfl, rfl⟩ := h3; obtain ⟨_, _, rfl, rfl⟩ := h3'; rfl

theorem EsResult.same_of_empty {p : Patch} {c : Desc} (h : HasNoField p) : EsResult p (some c) c := by
  cases h
  rcases c with ⟨e, f, k⟩
  cases k <;> simp [EsResult, pick, HasDataField, HasAccessorField, dataValue, dataWritable, accGet, accSet]

theorem decide_some_some {ext : Bool} {p : Patch} {cur : Option Desc} {d : Desc} (hv : p.valid = true)
    (h : decideDefine ext p cur = some (some d)) : EsAccepts ext p cur ∧ EsResult p cur d := by
  constructor
  · apply Classical.byContradiction
    intro hn
    rw [(decide_none_iff ext p cur hv).2 hn] at h
    cases h
  · cases cur with
    | none =>
      simp only [decideDefine] at h
      split at h
      · cases h
      · cases h; exact createDesc_result p hv
    | some c =>
      simp only [decideDefine] at h
      split at h
      · cases h
      split at h
      · cases h
      split at h
      · cases h
      split at h
      · cases h
      cases h
      exact applyPatch_result p c hv

theorem decide_some_none {ext : Bool} {p : Patch} {cur : Option Desc}
    (h : decideDefine ext p cur = some none) : ∃ c, cur = some c ∧ HasNoField p := by
  cases cur with
  | none => simp only [decideDefine] at h; split at h <;> cases h
  | some c =>
    refine ⟨c, rfl, ?_⟩
    simp only [decideDefine] at h
    split at h
    · rename_i he; exact (isEmpty_iff p).1 he
    · repeat (split at h; cases h)
      cases h

theorem FrozenAs.refl (d : Desc) (h : d.configurable = false) : FrozenAs d d := by
  rcases d with ⟨e, c, k⟩
  refine ⟨h, rfl, ?_⟩
  cases k with
  | data v w => cases w <;> simp
  | accessor => rfl

theorem FrozenAs.trans {a b c : Desc} (h : FrozenAs a b) (h' : FrozenAs b c) : FrozenAs a c := by
  rcases a with ⟨e, f, k⟩
  rcases b with ⟨e', f', k'⟩
  rcases c with ⟨e'', f'', k''⟩
  obtain ⟨h1, h2, h3⟩ := h
  obtain ⟨h1', h2', h3'⟩ := h'
  refine ⟨h1', h2'.trans h2, ?_⟩
  cases k with
  | accessor g s => simp only at h3; subst h3; exact h3'
  | data v w =>
    cases w with
    | false => simp only at h3; subst h3; exact h3'
    | true =>
      simp only at h3
      obtain ⟨v', w', rfl⟩ := h3
      cases w' with
      | false => exact ⟨_, _, h3'⟩
      | true => exact h3'

/-- An accepted definition respects what is frozen. -/
theorem frozen_of_es {ext : Bool} {p : Patch} {c d : Desc} (ha : EsAccepts ext p (some c)) (hr : EsResult p (some c) d)
    (hc : c.configurable = false) : FrozenAs c d := by
  rcases ha with h | h | h
  · have := EsResult.unique hr (EsResult.same_of_empty h)
    subst this
    exact FrozenAs.refl _ hc
  · rw [hc] at h; cases h
  · rcases c with ⟨ce, cc, ck⟩
    rcases d with ⟨de, dc, dk⟩
    rcases p with ⟨a, b, x, dd, e, f⟩
    simp only at hc
    subst hc
    obtain ⟨r1, r2, r3⟩ := hr
    obtain ⟨h1, h2, h3⟩ := h
    simp only [Option.map_some] at r1 r2
    simp only at h1 h2
    refine ⟨?_, ?_, ?_⟩
    · simp only; rw [r2]; cases b with
      | none => rfl
      | some b => cases b <;> simp_all [pick]
    · simp only; rw [r1]; cases a with
      | none => rfl
      | some a => exact h2 a rfl
    · cases ck with
      | accessor g s =>
        cases dk with
        | data v w =>
          simp only [accGet] at r3 h3
          rcases r3.2.1 with h | h
          · exact absurd h h3.1
          · cases h
        | accessor g' s' =>
          simp only [accGet, accSet] at r3 h3 ⊢
          obtain ⟨_, _, rfl, rfl⟩ := r3
          cases e <;> cases f <;> simp_all [pick]
      | data v w =>
        cases dk with
        | accessor g' s' =>
          simp only [accGet] at r3 h3
          rcases r3.2.1 with h | h
          · exact absurd h h3.1
          · exact absurd rfl h
        | data v' w' =>
          simp only [dataValue, dataWritable] at r3 h3
          cases w with
          | true => exact ⟨v', w', rfl⟩
          | false =>
            obtain ⟨_, _, rfl, rfl⟩ := r3
            simp only
            obtain ⟨h4, h5⟩ := h3.2 rfl
            have e1 : pick x (some v) Value.undefined = v := by
              cases x with
              | none => rfl
              | some y => exact h5 y rfl
            have e2 : pick dd (some false) false = false := by
              cases dd with
              | none => rfl
              | some y => cases y with
                | false => rfl
                | true => exact absurd rfl h4
            rw [e1, e2]

/-! ## Running operations -/

theorem bind_run {α β : Type} (m : M α) (k : α → M β) (s : Store) :
    (m >>= k) s = match m s with
      | (.ok a, s') => k a s'
      | (.error e, s') => (.error e, s') := rfl

theorem pure_run {α : Type} (a : α) (s : Store) : (pure a : M α) s = (.ok a, s) := rfl

theorem allocate_cases (s : Store) :
    (∃ a, allocate s = (.ok (), ⟨s.objs, a⟩)) ∨ (∃ a, allocate s = (.error .outOfMemory, ⟨s.objs, a⟩)) := by
  unfold allocate
  split
  · exact .inl ⟨s.alloc, rfl⟩
  · exact .inl ⟨_, rfl⟩
  · exact .inr ⟨_, rfl⟩

theorem getObj_some {s : Store} {id : Nat} {o : Obj} (h : s.objs[id]? = some o) : getObj id s = (.ok o, s) := by
  simp [getObj, h]

theorem getObj_none {s : Store} {id : Nat} (h : s.objs[id]? = none) : getObj id s = (.error .invalidHandle, s) := by
  simp [getObj, h]

/-- The object after the write of `define_property`. -/
def Obj.defined (o : Obj) (k : Key) (d : Desc) (nl : Option Nat) : Obj :=
  Obj.finishDefine { o with props := writeProps o.props k d } k nl

theorem writeEntry_cases (id : Nat) (o : Obj) (k : Key) (d : Desc) (s : Store) :
    (∃ a, writeEntry id o k d s = (.ok { o with props := writeProps o.props k d }, ⟨s.objs, a⟩)) ∨
    (∃ a, writeEntry id o k d s = (.error .outOfMemory, ⟨s.objs, a⟩)) := by
  unfold writeEntry writeProps
  cases position k o.props with
  | some i => exact .inl ⟨s.alloc, rfl⟩
  | none =>
    simp only
    rw [bind_run]
    rcases allocate_cases s with ⟨a, h⟩ | ⟨a, h⟩
    · rw [h]; exact .inl ⟨a, rfl⟩
    · rw [h]; exact .inr ⟨a, rfl⟩

theorem defineProperty_cases (id : Nat) (k : Key) (d : Desc) (s : Store) :
    (∃ o nl a, s.objs[id]? = some o ∧ o.newArrayLength k d = .ok nl ∧
      defineProperty id k d s = (.ok (), ⟨s.objs.set id (o.defined k d nl), a⟩)) ∨
    (∃ e a, defineProperty id k d s = (.error e, ⟨s.objs, a⟩) ∧
      (e = .outOfMemory ∨ (s.objs[id]? = none ∧ e = .invalidHandle) ∨
        ∃ o, s.objs[id]? = some o ∧ o.newArrayLength k d = .error e)) := by
  unfold defineProperty
  rw [bind_run]
  rcases allocate_cases s with ⟨a, h⟩ | ⟨a, h⟩
  · rw [h]
    simp only
    rw [bind_run]
    cases ho : s.objs[id]? with
    | none => rw [getObj_none (by exact ho)]; exact .inr ⟨_, _, rfl, .inr (.inl ⟨rfl, rfl⟩)⟩
    | some o =>
      rw [getObj_some (by exact ho)]
      simp only
      cases hn : o.newArrayLength k d with
      | error e => exact .inr ⟨e, a, rfl, .inr (.inr ⟨o, rfl, hn⟩)⟩
      | ok nl =>
        simp only
        rw [bind_run]
        rcases writeEntry_cases id o k d ⟨s.objs, a⟩ with ⟨b, h'⟩ | ⟨b, h'⟩
        · rw [h']; exact .inl ⟨o, nl, b, rfl, hn, rfl⟩
        · rw [h']; exact .inr ⟨_, b, rfl, .inl rfl⟩
  · rw [h]; exact .inr ⟨_, a, rfl, .inl rfl⟩

/-- What `ordinary_define_own_property` can do. -/
inductive DefOut (id : Nat) (k : Key) (p : Patch) (s : Store) : Except Err Bool × Store → Prop where
  | invalid : p.valid = false → DefOut id k p s (.error .invalidPatch, s)
  | oom (a) : p.valid = true → DefOut id k p s (.error .outOfMemory, ⟨s.objs, a⟩)
  | noObj (a) : p.valid = true → s.objs[id]? = none → DefOut id k p s (.error .invalidHandle, ⟨s.objs, a⟩)
  | rejected (a o) : p.valid = true → s.objs[id]? = some o → decideDefine o.extensible p (o.getOwn k) = none →
      DefOut id k p s (.ok false, ⟨s.objs, a⟩)
  | nothing (a o) : p.valid = true → s.objs[id]? = some o → decideDefine o.extensible p (o.getOwn k) = some none →
      DefOut id k p s (.ok true, ⟨s.objs, a⟩)
  | wrong (a o d e) : p.valid = true → s.objs[id]? = some o →
      decideDefine o.extensible p (o.getOwn k) = some (some d) →
      o.newArrayLength k d = .error e → DefOut id k p s (.error e, ⟨s.objs, a⟩)
  | wrote (a o d nl) : p.valid = true → s.objs[id]? = some o →
      decideDefine o.extensible p (o.getOwn k) = some (some d) →
      o.newArrayLength k d = .ok nl →
      DefOut id k p s (.ok true, ⟨s.objs.set id (o.defined k d nl), a⟩)

theorem ordinaryDefine_out (id : Nat) (k : Key) (p : Patch) (s : Store) : DefOut id k p s (ordinaryDefine id k p s) := by
  unfold ordinaryDefine
  cases hv : p.valid with
  | false => exact .invalid hv
  | true =>
    simp only [Bool.not_true, Bool.false_eq_true, if_false]
    rw [bind_run]
    rcases allocate_cases s with ⟨a, h⟩ | ⟨a, h⟩
    · rw [h]
      simp only
      rw [bind_run]
      cases ho : s.objs[id]? with
      | none => rw [getObj_none (by exact ho)]; exact .noObj a hv ho
      | some o =>
        rw [getObj_some (by exact ho)]
        simp only [validateAndApply, hv, Bool.not_true, Bool.false_eq_true, if_false]
        cases hd : decideDefine o.extensible p (o.getOwn k) with
        | none => exact .rejected a o hv ho hd
        | some r =>
          cases r with
          | none => exact .nothing a o hv ho hd
          | some d =>
            simp only
            rw [bind_run]
            rcases defineProperty_cases id k d ⟨s.objs, a⟩ with ⟨o', nl, b, ho', hn, hr⟩ | ⟨e, b, hr, he⟩
            · rw [hr]
              simp only at ho'
              rw [ho] at ho'; cases ho'
              exact .wrote b o d nl hv ho hd hn
            · rw [hr]
              rcases he with rfl | ⟨hno, rfl⟩ | ⟨o', ho', hn⟩
              · exact .oom b hv
              · simp only at hno; rw [ho] at hno; cases hno
              · simp only at ho'; rw [ho] at ho'; cases ho'
                exact .wrong b o d e hv ho hd hn
    · rw [h]; exact .oom a hv

/-! ## One object -/

theorem writeProps_cons_eq (e : Entry) (es : List Entry) (d : Desc) :
    writeProps (e :: es) e.key d = { e with desc := d } :: es := by
  simp [writeProps, position, setDescAt]

theorem writeProps_cons_ne {e : Entry} {es : List Entry} {k : Key} {d : Desc} (h : e.key ≠ k) :
    writeProps (e :: es) k d = e :: writeProps es k d := by
  simp only [writeProps, position, if_neg h]
  cases position k es <;> simp [setDescAt]

/-- Arrays keep their `length` property first, in step with the internal length. -/
def ArrShape (o : Obj) : Prop :=
  ∀ n, o.arrayLen = some n → n < 2 ^ 32 ∧ (o.props.map Entry.key).Nodup ∧
    ∃ w es, o.props = ⟨.str lengthUnits, ⟨false, false, .data (numVal n) w⟩⟩ :: es

def ArrBound (o : Obj) : Prop :=
  ∀ n, o.arrayLen = some n → ∀ e ∈ o.props, ∀ i, e.key.arrayIndex = some i → i < n

theorem defined_ordinary {o : Obj} {k : Key} {d : Desc} {nl : Option Nat} (ha : o.arrayLen = none)
    (hn : o.newArrayLength k d = .ok nl) : nl = none ∧ o.defined k d nl = { o with props := writeProps o.props k d } := by
  have : nl = none := by simp [Obj.newArrayLength, ha] at hn; exact hn.symm
  subst this
  refine ⟨rfl, ?_⟩
  simp only [Obj.defined, Obj.finishDefine, ha]
  cases k.arrayIndex <;> rfl

theorem arrayLengthFromNum_lt {x : Num} {l : Nat} (h : arrayLengthFromNum x = some l) : l < 2 ^ 32 := by
  cases x with
  | nan => cases h
  | inf => cases h
  | negZero => cases h; decide
  | fin q =>
    simp only [arrayLengthFromNum] at h
    split at h
    · cases h
    split at h
    · cases h
    split at h
    · cases h
    rename_i h1 h2 h3
    cases h
    have hq : (q.num : Rat) = q := by
      apply Rat.ext
      · simp
      · simp only [Rat.den_intCast]; simp at h2; exact h2.symm
    rw [Rat.not_lt, ← hq] at h3
    have := Rat.intCast_le_intCast.1 (by simpa using h3 : (q.num : Rat) ≤ ((2 ^ 32 - 1 : Nat) : Int))
    omega

theorem arrayLengthFromNum_nat {n : Nat} (h : n < 2 ^ 32) : arrayLengthFromNum (.fin (n : Rat)) = some n := by
  simp only [arrayLengthFromNum]
  rw [if_neg (by rw [Rat.not_lt]; exact_mod_cast Nat.zero_le n), if_neg (by simp), if_neg]
  · simp
  · rw [gt_iff_lt, Rat.not_lt]
    have : n ≤ 2 ^ 32 - 1 := by omega
    exact_mod_cast this

end Verif.Objects
