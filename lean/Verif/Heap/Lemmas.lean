import Verif.Heap.Spec

/-! # Helper lemmas about the heap model (not properties by themselves). -/

namespace Verif.Heap

/-! ## `refs` lists exactly the contained handles -/

theorem Value.mem_refs {i : HeapId} {v : Value} : i ∈ v.refs ↔ v.Is i := by
  constructor
  · intro h
    cases v <;> simp only [Value.refs, List.mem_singleton, List.not_mem_nil] at h <;> subst h <;>
      constructor
  · intro h
    cases h <;> simp [Value.refs]

theorem PropertyKey.mem_refs {i : HeapId} {v : PropertyKey} : i ∈ v.refs ↔ v.Is i := by
  constructor
  · intro h
    cases v <;> simp only [PropertyKey.refs, List.mem_singleton] at h <;> subst h <;> constructor
  · intro h
    cases h <;> simp [PropertyKey.refs]

theorem mem_optRefs {i : HeapId} {o : Option HeapId} : i ∈ optRefs o ↔ o = some i := by
  cases o <;> simp [optRefs, eq_comm]

theorem mem_optValRefs {i : HeapId} {o : Option Value} :
    i ∈ optValRefs o ↔ ∃ v, o = some v ∧ v.Is i := by
  cases o <;> simp [optValRefs, Value.mem_refs]

theorem ObjectBase.mem_refs {i : HeapId} {b : ObjectBase} : i ∈ b.refs ↔ b.Contains i := by
  constructor
  · intro h
    simp only [ObjectBase.refs, List.mem_append, mem_optRefs, List.mem_flatMap] at h
    rcases h with h | ⟨p, hp, h⟩
    · exact .prototype h
    · simp only [PropertyEntry.refs, List.mem_append, PropertyKey.mem_refs] at h
      rcases h with h | h
      · exact .key p hp h
      · cases hk : p.kind with
        | data v w =>
          rw [hk] at h
          exact .value p hp v w hk (Value.mem_refs.1 h)
        | accessor g s =>
          rw [hk] at h
          simp only [PropertyKind.refs, List.mem_append, Value.mem_refs] at h
          rcases h with h | h
          · exact .getter p hp g s hk h
          · exact .setter p hp g s hk h
  · intro h
    simp only [ObjectBase.refs, List.mem_append, mem_optRefs, List.mem_flatMap, PropertyEntry.refs]
    cases h with
    | prototype h => exact .inl h
    | key p hp h => exact .inr ⟨p, hp, .inl (PropertyKey.mem_refs.2 h)⟩
    | value p hp v w hk h => exact .inr ⟨p, hp, .inr (by rw [hk]; exact Value.mem_refs.2 h)⟩
    | getter p hp g s hk h =>
      exact .inr ⟨p, hp, .inr (by rw [hk]; simp [PropertyKind.refs, Value.mem_refs, h])⟩
    | setter p hp g s hk h =>
      exact .inr ⟨p, hp, .inr (by rw [hk]; simp [PropertyKind.refs, Value.mem_refs, h])⟩

theorem PromiseReaction.mem_refs {i : HeapId} {r : PromiseReaction} :
    i ∈ r.refs ↔ r.Contains i := by
  constructor
  · intro h
    simp only [PromiseReaction.refs, List.mem_append, mem_optRefs] at h
    rcases h with h | h
    · cases hc : r.capability with
      | none => simp [hc] at h
      | some c =>
        simp only [hc, PromiseCapability.refs, List.mem_append, Value.mem_refs] at h
        rcases h with (h | h) | h
        · exact .capPromise c hc h
        · exact .capResolve c hc h
        · exact .capReject c hc h
    · exact .handler h
  · intro h
    simp only [PromiseReaction.refs, List.mem_append, mem_optRefs]
    cases h with
    | capPromise c hc h => left; simp [hc, PromiseCapability.refs, Value.mem_refs, h]
    | capResolve c hc h => left; simp [hc, PromiseCapability.refs, Value.mem_refs, h]
    | capReject c hc h => left; simp [hc, PromiseCapability.refs, Value.mem_refs, h]
    | handler h => exact .inr h

theorem HeapObject.mem_refs {i : HeapId} {o : HeapObject} : i ∈ o.refs ↔ o.Contains i := by
  constructor
  · intro h
    cases o with
    | string u => simp [HeapObject.refs] at h
    | symbol n d =>
      simp only [HeapObject.refs, mem_optRefs] at h
      subst h
      exact .symbolDescription n
    | object b => exact .objectField b (ObjectBase.mem_refs.1 h)
    | function f =>
      simp only [HeapObject.refs, JsFunction.refs, List.mem_append, List.mem_singleton,
        mem_optRefs, mem_optValRefs, ObjectBase.mem_refs, List.mem_flatMap, Value.mem_refs] at h
      rcases h with ((((((((h | h) | h) | h) | h) | h) | h) | h) | h) | h
      · exact .functionBase f h
      · exact .functionName f h.symm
      · cases hd : f.data with
        | none => simp [hd, FunctionData.refs] at h
        | promiseCapabilityExecutor => simp [hd, FunctionData.refs] at h
        | promiseResolvingFunction p =>
          simp [hd, FunctionData.refs] at h
          subst h
          exact .functionPromise f hd
        | promiseFinallyHandler a c =>
          simp only [hd, FunctionData.refs, List.mem_append, Value.mem_refs] at h
          rcases h with h | h
          · exact .functionOnFinally f a c hd h
          · exact .functionConstructor f a c hd h
        | promiseFinallyThunk v =>
          simp only [hd, FunctionData.refs, Value.mem_refs] at h
          exact .functionThunk f v hd h
      · exact .functionBoundTarget f h
      · obtain ⟨v, hv, h⟩ := h
        exact .functionBoundThis f v hv h
      · obtain ⟨v, hv, h⟩ := h
        exact .functionNewTarget f v hv h
      · obtain ⟨v, hv, h⟩ := h
        cases hb : f.boundArgs with
        | none => simp [hb] at hv
        | some vs => exact .functionArg f vs hb v (by simpa [hb] using hv) h
      · obtain ⟨v, hv, h⟩ := h
        cases hb : f.nativeSlots with
        | none => simp [hb] at hv
        | some vs => exact .functionSlot f vs hb v (by simpa [hb] using hv) h
      · exact .functionRealm f h
      · exact .functionEnv f h
    | env e =>
      cases e with
      | declarative o bs t n =>
        simp only [HeapObject.refs, EnvRecord.refs, List.mem_append, mem_optRefs, mem_optValRefs,
          List.mem_flatMap, EnvBinding.refs, Value.mem_refs] at h
        rcases h with ((h | ⟨b, hb, h | h⟩) | ⟨v, hv, h⟩) | ⟨v, hv, h⟩
        · subst h; exact .envOuter bs t n
        · exact .envName o bs t n b hb h
        · exact .envValue o bs t n b hb h
        · subst hv; exact .envThis o bs v n h
        · subst hv; exact .envNewTarget o bs t v h
      | objectEnv o b w =>
        simp only [HeapObject.refs, EnvRecord.refs, List.mem_append, mem_optRefs,
          List.mem_singleton] at h
        rcases h with h | h
        · subst h; exact .objectEnvOuter b w
        · subst h; exact .objectEnvObject o w
    | promise p =>
      simp only [HeapObject.refs, JsPromise.refs, List.mem_append, mem_optValRefs,
        ObjectBase.mem_refs, List.mem_flatMap, PromiseReaction.mem_refs] at h
      rcases h with ((h | ⟨v, hv, h⟩) | ⟨r, hr, h⟩) | ⟨r, hr, h⟩
      · exact .promiseBase p h
      · exact .promiseResult p v hv h
      · cases hb : p.fulfillReactions with
        | none => simp [hb] at hr
        | some rs => exact .promiseFulfill p rs hb r (by simpa [hb] using hr) h
      · cases hb : p.rejectReactions with
        | none => simp [hb] at hr
        | some rs => exact .promiseReject p rs hb r (by simpa [hb] using hr) h
  · intro h
    cases h <;>
      simp_all [HeapObject.refs, JsFunction.refs, EnvRecord.refs, JsPromise.refs, mem_optRefs,
        mem_optValRefs, ObjectBase.mem_refs, PromiseReaction.mem_refs, Value.mem_refs,
        FunctionData.refs, EnvBinding.refs, optRefs, optValRefs]
    all_goals grind

theorem mem_rootIds {h : Heap} {extra : List HeapId} {i : HeapId} :
    i ∈ h.rootIds extra ↔ h.IsRoot extra i := by
  constructor
  · intro hi
    simp only [Heap.rootIds, List.mem_append, List.mem_flatMap, Value.mem_refs, mem_optValRefs] at hi
    rcases hi with (((hi | ⟨v, hv, hi⟩) | hi) | ⟨o, ho, v, hv, hi⟩) | ⟨e, he, hi⟩
    · exact .extra hi
    · exact .stack v hv hi
    · exact .envStack hi
    · subst hv; exact .persistent v ho hi
    · simp only [List.mem_cons, List.not_mem_nil, or_false] at hi
      obtain ⟨k, s⟩ := e
      rcases hi with hi | hi
      · subst hi; exact .registryKey s he
      · subst hi; exact .registrySymbol k he
  · intro hi
    simp only [Heap.rootIds, List.mem_append, List.mem_flatMap, Value.mem_refs, mem_optValRefs]
    cases hi with
    | extra hm => exact .inl (.inl (.inl (.inl hm)))
    | stack v hm hv => exact .inl (.inl (.inl (.inr ⟨v, hm, hv⟩)))
    | envStack hm => exact .inl (.inl (.inr hm))
    | persistent v hm hv => exact .inl (.inr ⟨_, hm, v, rfl, hv⟩)
    | registryKey s hm => exact .inr ⟨_, hm, by simp⟩
    | registrySymbol k hm => exact .inr ⟨_, hm, by simp⟩

/-! ## Handles -/

theorem validateIn_eq_some {slots : List Slot} {id : HeapId} {idx : Nat} :
    validateIn slots id = some idx ↔
      idx = id.index ∧ ∃ s, slots[id.index]? = some s ∧ s.generation = id.gen ∧ s.value.isSome := by
  unfold validateIn
  cases hs : slots[id.index]? with
  | none => simp
  | some s =>
    by_cases hg : s.generation = id.gen
    · cases hv : s.value with
      | none => simp [hg, hv]
      | some o =>
        simp only [hg, hv, ne_eq, not_true_eq_false, if_false, Option.isNone_some,
          Bool.false_eq_true, Option.some.injEq]
        constructor
        · rintro rfl
          exact ⟨rfl, s, rfl, hg, by simp [hv]⟩
        · rintro ⟨rfl, _⟩
          rfl
    · simp [hg]

/-- Cell stored in a slot table under a handle. -/
def cellIn (slots : List Slot) (id : HeapId) : Option HeapObject :=
  match slots[id.index]? with
  | some s => if s.generation = id.gen then s.value else none
  | none => none

theorem Heap.get_eq (h : Heap) (id : HeapId) : h.get id = cellIn h.slots id := by
  unfold Heap.get validateIn cellIn
  cases hs : h.slots[id.index]? with
  | none => simp
  | some s =>
    by_cases hg : s.generation = id.gen
    · cases hv : s.value <;> simp [hg, hv, hs]
    · simp [hg]

theorem cellIn_eq_some {slots : List Slot} {id : HeapId} {o : HeapObject} :
    cellIn slots id = some o ↔
      ∃ s, slots[id.index]? = some s ∧ s.generation = id.gen ∧ s.value = some o := by
  unfold cellIn
  cases hs : slots[id.index]? with
  | none => simp
  | some s => by_cases hg : s.generation = id.gen <;> simp [hg]

theorem validateIn_isSome {slots : List Slot} {id : HeapId} :
    (validateIn slots id).isSome ↔ (cellIn slots id).isSome := by
  unfold validateIn cellIn
  cases hs : slots[id.index]? with
  | none => simp
  | some s =>
    by_cases hg : s.generation = id.gen
    · cases hv : s.value <;> simp [hg, hv]
    · simp [hg]

theorem validateIn_of_cellIn {slots : List Slot} {id : HeapId} {o : HeapObject}
    (h : cellIn slots id = some o) : validateIn slots id = some id.index := by
  obtain ⟨s, hs, hg, hv⟩ := cellIn_eq_some.1 h
  exact validateIn_eq_some.2 ⟨rfl, s, hs, hg, by simp [hv]⟩

theorem valid_index_inj {slots : List Slot} {i j : HeapId} (hi : (cellIn slots i).isSome)
    (hj : (cellIn slots j).isSome) (h : i.index = j.index) : i = j := by
  obtain ⟨oi, hi⟩ := Option.isSome_iff_exists.1 hi
  obtain ⟨oj, hj⟩ := Option.isSome_iff_exists.1 hj
  obtain ⟨s, hs, hg, _⟩ := cellIn_eq_some.1 hi
  obtain ⟨s', hs', hg', _⟩ := cellIn_eq_some.1 hj
  rw [h, hs'] at hs
  obtain rfl := Option.some.inj hs
  cases i; cases j; simp_all

/-! ## Marking -/

/-- Mark byte of slot `idx`. -/
def Tracer.at (t : Tracer) (idx : Nat) : Nat := t.marks.getD idx 0

theorem getD_set (l : List Nat) (i j v : Nat) (hi : i < l.length) :
    (l.set i v).getD j 0 = if i = j then v else l.getD j 0 := by
  simp only [List.getD_eq_getElem?_getD, List.getElem?_set]
  split
  · simp [hi]
  · rfl

theorem lt_of_valid {slots : List Slot} {id : HeapId} {idx : Nat}
    (h : validateIn slots id = some idx) : idx < slots.length := by
  obtain ⟨rfl, s, hs, _⟩ := validateIn_eq_some.1 h
  exact (List.getElem?_eq_some_iff.1 hs).1

/-- What one `traceHeapId` and hence `traceAll` does to the tracer state. -/
structure TraceStep (slots : List Slot) (ids : List HeapId) (t t' : Tracer) : Prop where
  len : t'.marks.length = t.marks.length
  mono : ∀ idx, t.at idx ≠ 0 → t'.at idx = t.at idx
  only : ∀ idx, t.at idx = 0 → t'.at idx ≠ 0 →
    t'.at idx = 1 ∧ ∃ id ∈ ids, id.index = idx ∧ (cellIn slots id).isSome ∧ id ∈ t'.work
  done : ∀ id ∈ ids, (cellIn slots id).isSome → t'.at id.index ≠ 0
  workMono : ∀ id ∈ t.work, id ∈ t'.work
  workOnly : ∀ id ∈ t'.work, id ∈ t.work ∨ (id ∈ ids ∧ (cellIn slots id).isSome ∧ t'.at id.index ≠ 0)

theorem traceHeapId_step (slots : List Slot) (t : Tracer) (id : HeapId)
    (hl : t.marks.length = slots.length) : TraceStep slots [id] t (traceHeapId slots t id) := by
  unfold traceHeapId
  cases hv : validateIn slots id with
  | none =>
    have : ¬ (cellIn slots id).isSome := by rw [← validateIn_isSome, hv]; simp
    exact ⟨rfl, fun _ _ => rfl, fun _ h h' => absurd h h',
      fun i hi hc => absurd (List.mem_singleton.1 hi ▸ hc) this,
      fun _ h => h, fun _ h => .inl h⟩
  | some idx =>
    have hlt : idx < t.marks.length := hl ▸ lt_of_valid hv
    have hid : idx = id.index := (validateIn_eq_some.1 hv).1
    have hc : (cellIn slots id).isSome := by rw [← validateIn_isSome, hv]; simp
    simp only
    split
    · rename_i hm
      refine ⟨rfl, fun _ _ => rfl, fun _ h h' => absurd h h', ?_, fun _ h => h, fun _ h => .inl h⟩
      intro i hi _
      simp only [List.mem_singleton] at hi
      subst hi
      rw [← hid]; exact hm
    · rename_i hm
      have hm : t.marks.getD idx 0 = 0 := by simpa using hm
      refine ⟨by simp, ?_, ?_, ?_, ?_, ?_⟩
      · intro j hj
        simp only [Tracer.at, getD_set _ _ _ _ hlt] at hj ⊢
        split
        · subst_vars; exact absurd hm hj
        · rfl
      · intro j hj hj'
        simp only [Tracer.at, getD_set _ _ _ _ hlt] at hj hj' ⊢
        split
        · rename_i h; subst h
          exact ⟨rfl, id, by simp, hid.symm, hc, by simp⟩
        · rename_i h; rw [if_neg h] at hj'; exact absurd hj hj'
      · intro i hi _
        simp only [List.mem_singleton] at hi
        subst hi
        simp only [Tracer.at]
        rw [getD_set _ _ _ _ hlt, if_pos hid]
        omega
      · intro i hi; simp [hi]
      · intro i hi
        simp only [List.mem_cons] at hi
        rcases hi with rfl | hi
        · refine .inr ⟨by simp, hc, ?_⟩
          simp only [Tracer.at]
          rw [getD_set _ _ _ _ hlt, if_pos hid]
          omega
        · exact .inl hi

theorem TraceStep.trans {slots : List Slot} {a b : List HeapId} {t t' t'' : Tracer}
    (h1 : TraceStep slots a t t') (h2 : TraceStep slots b t' t'') :
    TraceStep slots (a ++ b) t t'' := by
  refine ⟨h2.len.trans h1.len, ?_, ?_, ?_, ?_, ?_⟩
  · intro i hi
    have := h1.mono i hi
    rw [h2.mono i (by rw [this]; exact hi), this]
  · intro i hi hi'
    by_cases h : t'.at i = 0
    · obtain ⟨h1', id, hid, hx, hc, hw⟩ := h2.only i h hi'
      exact ⟨h1', id, by simp [hid], hx, hc, hw⟩
    · obtain ⟨h1', id, hid, hx, hc, hw⟩ := h1.only i hi h
      exact ⟨by rw [h2.mono i h, h1'], id, by simp [hid], hx, hc, h2.workMono _ hw⟩
  · intro i hi hc
    rcases List.mem_append.1 hi with hi | hi
    · have := h1.done i hi hc
      rw [h2.mono _ this]; exact this
    · exact h2.done i hi hc
  · exact fun i hi => h2.workMono i (h1.workMono i hi)
  · intro i hi
    rcases h2.workOnly i hi with hi | ⟨hi, hc, hm⟩
    · rcases h1.workOnly i hi with hi | ⟨hi, hc, hm⟩
      · exact .inl hi
      · exact .inr ⟨by simp [hi], hc, by rw [h2.mono _ hm]; exact hm⟩
    · exact .inr ⟨by simp [hi], hc, hm⟩

theorem traceAll_step (slots : List Slot) (ids : List HeapId) (t : Tracer)
    (hl : t.marks.length = slots.length) : TraceStep slots ids t (traceAll slots t ids) := by
  induction ids generalizing t with
  | nil =>
    exact ⟨rfl, fun _ _ => rfl, fun _ h h' => absurd h h', by simp, fun _ h => h, fun _ h => .inl h⟩
  | cons i is ih =>
    have h1 := traceHeapId_step slots t i hl
    have h2 := ih (traceHeapId slots t i) (h1.len.trans hl)
    exact h1.trans h2

/-- Invariant of the mark loop; `P` is any predicate that holds of the roots and is closed under
valid references. -/
structure MarkInv (slots : List Slot) (P : HeapId → Prop) (t : Tracer) : Prop where
  len : t.marks.length = slots.length
  work : ∀ id ∈ t.work, (cellIn slots id).isSome ∧ t.at id.index ≠ 0
  sound : ∀ idx, t.at idx ≠ 0 → ∃ id : HeapId, id.index = idx ∧ (cellIn slots id).isSome ∧ P id
  grey : ∀ idx, t.at idx ≠ 0 → t.at idx ≠ 2 → ∃ id ∈ t.work, id.index = idx
  black : ∀ id o, cellIn slots id = some o → t.at id.index = 2 →
    ∀ j ∈ o.refs, (cellIn slots j).isSome → t.at j.index ≠ 0

theorem markLoop_inv (slots : List Slot) (P : HeapId → Prop)
    (hP : ∀ i o j, P i → cellIn slots i = some o → j ∈ o.refs → (cellIn slots j).isSome → P j)
    (t : Tracer) (hi : MarkInv slots P t) :
    MarkInv slots P (markLoop slots t) ∧ (markLoop slots t).work = [] ∧
      ∀ idx, t.at idx ≠ 0 → (markLoop slots t).at idx ≠ 0 := by
  fun_induction markLoop slots t with
  | case1 t hw => exact ⟨hi, hw, fun _ h => h⟩
  | case2 t id rest hw hv ih =>
    exfalso
    have := (hi.work id (by simp [hw])).1
    rw [← validateIn_isSome, hv] at this
    simp at this
  | case3 t id rest hw idx hv hb hn ih =>
    exfalso
    obtain ⟨rfl, s, hs, _, hv'⟩ := validateIn_eq_some.1 hv
    rw [hs] at hn
    simp only [Option.bind_some] at hn
    rw [hn] at hv'
    simp at hv'
  | case4 t id rest hw idx hv hb o ho ih =>
    have hlt : idx < t.marks.length := hb.1
    obtain ⟨hidx, s, hs, hg, _⟩ := validateIn_eq_some.1 hv
    have hcell : cellIn slots id = some o := by
      rw [hidx] at ho; rw [hs] at ho
      exact cellIn_eq_some.2 ⟨s, hs, hg, by simpa using ho⟩
    have hat : ∀ j, (Tracer.mk (t.marks.set idx 2) rest).at j = if idx = j then 2 else t.at j :=
      fun j => getD_set _ _ _ _ hlt
    have hst := traceAll_step slots o.refs ⟨t.marks.set idx 2, rest⟩ (by simp [hi.len])
    generalize traceAll slots ⟨t.marks.set idx 2, rest⟩ o.refs = t' at hst ih ⊢
    have hPid : P id := by
      obtain ⟨id', h1, h2, h3⟩ := hi.sound id.index (hi.work id (by simp [hw])).2
      have := valid_index_inj h2 (by simp [hcell] : (cellIn slots id).isSome) h1
      exact this ▸ h3
    have hmono : ∀ j, t.at j ≠ 0 → t'.at j ≠ 0 := by
      intro j hj
      have : (Tracer.mk (t.marks.set idx 2) rest).at j ≠ 0 := by
        rw [hat]; split
        · omega
        · exact hj
      rw [hst.mono j this]; exact this
    have hinv : MarkInv slots P t' := by
      refine ⟨by rw [hst.len]; simp [hi.len], ?_, ?_, ?_, ?_⟩
      · intro i hi'
        rcases hst.workOnly i hi' with h | ⟨_, h2, h3⟩
        · have := hi.work i (by rw [hw]; simp [h])
          exact ⟨this.1, hmono _ this.2⟩
        · exact ⟨h2, h3⟩
      · intro j hj
        by_cases h0 : (Tracer.mk (t.marks.set idx 2) rest).at j = 0
        · obtain ⟨_, i, hi1, hi2, hi3, _⟩ := hst.only j h0 hj
          exact ⟨i, hi2, hi3, hP id o i hPid hcell hi1 hi3⟩
        · rw [hat] at h0
          by_cases hj' : idx = j
          · exact ⟨id, by rw [← hidx, hj'], by simp [hcell], hPid⟩
          · rw [if_neg hj'] at h0
            exact hi.sound j h0
      · intro j hj hj2
        by_cases h0 : (Tracer.mk (t.marks.set idx 2) rest).at j = 0
        · obtain ⟨_, i, hi1, hi2, _, hi4⟩ := hst.only j h0 hj
          exact ⟨i, hi4, hi2⟩
        · rw [hst.mono j h0] at hj2
          rw [hat] at h0 hj2
          by_cases hj' : idx = j
          · simp [hj'] at hj2
          · rw [if_neg hj'] at h0 hj2
            obtain ⟨i, hi1, hi2⟩ := hi.grey j h0 hj2
            rw [hw] at hi1
            rcases List.mem_cons.1 hi1 with rfl | hi1
            · exact absurd (hidx.trans hi2) hj'
            · exact ⟨i, hst.workMono i hi1, hi2⟩
      · intro i oi hci h2 j hj hcj
        by_cases hx : idx = i.index
        · have : i = id := valid_index_inj (slots := slots) (by simp [hci]) (by simp [hcell]) (by rw [← hx, hidx])
          subst this
          rw [hcell] at hci
          obtain rfl := Option.some.inj hci
          exact hst.done j hj hcj
        · have h0 : (Tracer.mk (t.marks.set idx 2) rest).at i.index ≠ 0 := by
            intro h0
            have := (hst.only _ h0 (by omega)).1
            omega
          rw [hst.mono _ h0, hat, if_neg hx] at h2
          exact hmono _ (hi.black i oi hci h2 j hj hcj)
    obtain ⟨h1, h2, h3⟩ := ih hinv
    exact ⟨h1, h2, fun j hj => h3 j (hmono j hj)⟩
  | case5 t id rest hw idx hv hb ih =>
    have hlt : idx < t.marks.length := by rw [hi.len]; exact lt_of_valid hv
    have hidx := (validateIn_eq_some.1 hv).1
    have h2 : t.at idx = 2 := by
      simp only [not_and, Classical.not_not] at hb
      exact hb hlt
    apply ih
    refine ⟨hi.len, ?_, hi.sound, ?_, hi.black⟩
    · intro i hi'
      exact hi.work i (by rw [hw]; simp [hi'])
    · intro j hj hj2
      obtain ⟨i, hi1, hi2⟩ := hi.grey j hj hj2
      rw [hw] at hi1
      rcases List.mem_cons.1 hi1 with rfl | hi1
      · exfalso; apply hj2
        show t.at j = 2
        rw [← hi2, ← hidx]; exact h2
      · exact ⟨i, hi1, hi2⟩

/-- After marking, a slot is marked iff it holds a reachable cell. -/
theorem mark_iff (h : Heap) (extra : List HeapId) (hl : h.marks.length = h.slots.length)
    (hc : ∀ m ∈ h.marks, m = 0) :
    (h.mark extra).marks.length = h.slots.length ∧
    ∀ id, (h.get id).isSome → ((h.mark extra).at id.index ≠ 0 ↔ h.Reachable extra id) := by
  have hst := traceAll_step h.slots (h.rootIds extra) ⟨h.marks, []⟩ hl
  have hzero : ∀ j, (Tracer.mk h.marks []).at j = 0 := by
    intro j
    simp only [Tracer.at, List.getD_eq_getElem?_getD]
    cases hj : h.marks[j]? with
    | none => rfl
    | some m => exact hc m (List.mem_of_getElem? hj)
  unfold Heap.mark
  generalize traceAll h.slots ⟨h.marks, []⟩ (h.rootIds extra) = t at hst ⊢
  have hinv : MarkInv h.slots (h.Reachable extra) t := by
    refine ⟨by rw [hst.len]; exact hl, ?_, ?_, ?_, ?_⟩
    · intro i hi
      rcases hst.workOnly i hi with hi | ⟨_, h2, h3⟩
      · simp at hi
      · exact ⟨h2, h3⟩
    · intro j hj
      obtain ⟨_, i, hi1, hi2, hi3, _⟩ := hst.only j (hzero j) hj
      exact ⟨i, hi2, hi3, .root (mem_rootIds.1 hi1) (by rw [Heap.get_eq]; exact hi3)⟩
    · intro j hj _
      obtain ⟨_, i, hi1, hi2, hi3, hi4⟩ := hst.only j (hzero j) hj
      exact ⟨i, hi4, hi2⟩
    · intro i o _ h2 _ _ _
      have := (hst.only i.index (hzero _) (by omega)).1
      omega
  obtain ⟨h1, h2, h3⟩ := markLoop_inv h.slots (h.Reachable extra)
    (fun i o j hi ho hj hcj => .step hi (by rw [Heap.get_eq]; exact ho) (HeapObject.mem_refs.1 hj)
      (by rw [Heap.get_eq]; exact hcj)) t hinv
  refine ⟨h1.len, fun id hid => ⟨fun hm => ?_, fun hr => ?_⟩⟩
  · obtain ⟨i, hi1, hi2, hi3⟩ := h1.sound _ hm
    rw [Heap.get_eq] at hid
    exact valid_index_inj hi2 hid hi1 ▸ hi3
  · induction hr with
    | root hr hlive =>
      exact h3 _ (hst.done _ (mem_rootIds.2 hr) (by rw [← Heap.get_eq]; exact hlive))
    | step hi ho hcj hlive ih =>
      rename_i i j o
      have hmi := ih (by simp [ho])
      have hb : (markLoop h.slots t).at i.index = 2 := by
        by_cases hb : (markLoop h.slots t).at i.index = 2
        · exact hb
        · obtain ⟨k, hk, _⟩ := h1.grey _ hmi hb
          rw [h2] at hk
          simp at hk
      exact h1.black i o (by rw [← Heap.get_eq]; exact ho) hb j (HeapObject.mem_refs.2 hcj)
        (by rw [← Heap.get_eq]; exact hlive)

/-! ## Sweeping -/

/-- What the sweep does to one slot. -/
def sweepSlot (s : Slot) (m : Nat) : Slot :=
  if s.value.isNone then s else if m ≠ 0 then s
  else { generation := (s.generation + 1) % u32Mod, value := none, hostSlots := none, bytes := 0 }

/-- The slot is freed by the sweep. -/
def swept (s : Slot) (m : Nat) : Prop := s.value.isSome ∧ m = 0

instance (s : Slot) (m : Nat) : Decidable (swept s m) := by unfold swept; infer_instance

/-- Bytes of the slots that are freed. -/
def sweptBytes : List Slot → List Nat → Nat
  | s :: ss, m :: ms => (if swept s m then s.bytes else 0) + sweptBytes ss ms
  | _, _ => 0

theorem sweepLoop_slots (ss : List Slot) (ms : List Nat) (idx used : Nat) (free : List Nat)
    (hl : ms.length = ss.length) :
    (sweepLoop idx ss ms used free).slots = List.zipWith sweepSlot ss ms ∧
    (sweepLoop idx ss ms used free).marks = List.replicate ss.length 0 ∧
    (sweepLoop idx ss ms used free).used = used - sweptBytes ss ms := by
  induction ss generalizing ms idx used free with
  | nil =>
    cases ms with
    | nil => simp [sweepLoop, sweptBytes]
    | cons => simp at hl
  | cons s ss ih =>
    cases ms with
    | nil => simp at hl
    | cons m ms =>
      have hl : ms.length = ss.length := by simpa using hl
      cases hv : s.value with
      | none =>
        have := ih ms (idx + 1) used free hl
        simp [sweepLoop, sweepSlot, sweptBytes, swept, hv, this, List.replicate_succ]
      | some o =>
        by_cases hm : m = 0
        · have := ih ms (idx + 1) (used - s.bytes) (idx :: free) hl
          simp [sweepLoop, sweepSlot, sweptBytes, swept, hv, hm, this, List.replicate_succ]
          omega
        · have := ih ms (idx + 1) used free hl
          simp [sweepLoop, sweepSlot, sweptBytes, swept, hv, hm, this, List.replicate_succ]

theorem sweepLoop_free (ss : List Slot) (ms : List Nat) (idx used : Nat) (free : List Nat)
    (hl : ms.length = ss.length) :
    (∀ j, j ∈ (sweepLoop idx ss ms used free).free ↔
      j ∈ free ∨ ∃ k s m, ss[k]? = some s ∧ ms[k]? = some m ∧ swept s m ∧ j = idx + k) ∧
    (free.Nodup → (∀ k s m, ss[k]? = some s → ms[k]? = some m → swept s m → idx + k ∉ free) →
      (sweepLoop idx ss ms used free).free.Nodup) := by
  induction ss generalizing ms idx used free with
  | nil => cases ms <;> simp_all [sweepLoop]
  | cons s ss ih =>
    cases ms with
    | nil => simp at hl
    | cons m ms =>
      have hl : ms.length = ss.length := by simpa using hl
      have key : ∀ (j : Nat), (∃ k s' m', (s :: ss)[k]? = some s' ∧ (m :: ms)[k]? = some m' ∧
            swept s' m' ∧ j = idx + k) ↔
          ((swept s m ∧ j = idx) ∨ ∃ k s' m', ss[k]? = some s' ∧ ms[k]? = some m' ∧ swept s' m' ∧
            j = idx + 1 + k) := by
        intro j
        constructor
        · rintro ⟨k, s', m', h1, h2, h3, rfl⟩
          cases k with
          | zero => simp at h1 h2; subst h1; subst h2; exact .inl ⟨h3, rfl⟩
          | succ k => exact .inr ⟨k, s', m', by simpa using h1, by simpa using h2, h3, by omega⟩
        · rintro (⟨h3, rfl⟩ | ⟨k, s', m', h1, h2, h3, rfl⟩)
          · exact ⟨0, s, m, by simp, by simp, h3, rfl⟩
          · exact ⟨k + 1, s', m', by simpa using h1, by simpa using h2, h3, by omega⟩
      by_cases hs : swept s m
      · have heq : (sweepLoop idx (s :: ss) (m :: ms) used free).free =
            (sweepLoop (idx + 1) ss ms (used - s.bytes) (idx :: free)).free := by
          obtain ⟨h1, h2⟩ := hs
          cases hv : s.value with
          | none => simp [hv] at h1
          | some o => simp [sweepLoop, hv, h2]
        obtain ⟨ih1, ih2⟩ := ih ms (idx + 1) (used - s.bytes) (idx :: free) hl
        rw [heq]
        refine ⟨fun j => ?_, fun hn hd => ih2 ?_ ?_⟩
        · rw [ih1, key]
          simp only [List.mem_cons]
          grind
        · rw [List.nodup_cons]
          exact ⟨by simpa using hd 0 s m (by simp) (by simp) hs, hn⟩
        · intro k s' m' h1 h2 h3
          have := hd (k + 1) s' m' (by simpa using h1) (by simpa using h2) h3
          simp only [List.mem_cons, not_or]
          exact ⟨by omega, by rwa [show idx + 1 + k = idx + (k + 1) by omega]⟩
      · have heq : (sweepLoop idx (s :: ss) (m :: ms) used free).free =
            (sweepLoop (idx + 1) ss ms used free).free := by
          cases hv : s.value with
          | none => simp [sweepLoop, hv]
          | some o =>
            have : m ≠ 0 := fun hm => hs ⟨by simp [hv], hm⟩
            simp [sweepLoop, hv, this]
        obtain ⟨ih1, ih2⟩ := ih ms (idx + 1) used free hl
        rw [heq]
        refine ⟨fun j => ?_, fun hn hd => ih2 hn ?_⟩
        · rw [ih1, key]
          simp [hs]
        · intro k s' m' h1 h2 h3
          have := hd (k + 1) s' m' (by simpa using h1) (by simpa using h2) h3
          rwa [show idx + 1 + k = idx + (k + 1) by omega]

end Verif.Heap
