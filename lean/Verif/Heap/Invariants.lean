import Verif.Heap.Lemmas

/-! # Preservation of the heap invariants (helper lemmas). -/

namespace Verif.Heap

/-! ## Lists -/

theorem sum_modify {α : Type} (g : α → Nat) (f : α → α) (l : List α) (i : Nat) (a : α)
    (h : l[i]? = some a) : ((l.modify i f).map g).sum + g a = (l.map g).sum + g (f a) := by
  induction l generalizing i with
  | nil => simp at h
  | cons x xs ih =>
    cases i with
    | zero => simp at h; subst h; simp [List.modify_zero_cons]; omega
    | succ i =>
      have := ih i (by simpa using h)
      simp [List.modify_succ_cons]; omega

theorem forall_mem_modify {α : Type} {P : α → Prop} {f : α → α} {l : List α} {i : Nat}
    (h : ∀ a ∈ l, P a) (hf : ∀ a, l[i]? = some a → P (f a)) : ∀ a ∈ l.modify i f, P a := by
  intro a ha
  obtain ⟨j, hj⟩ := List.mem_iff_getElem?.1 ha
  rw [List.getElem?_modify] at hj
  cases hl : l[j]? with
  | none => simp [hl] at hj
  | some b =>
    simp only [hl, Option.map_eq_map, Option.map_some, Option.some.injEq] at hj
    subst hj
    split
    · rename_i he; subst he; exact hf b hl
    · exact h b (List.mem_of_getElem? hl)

/-! ## Sweeping and `Ok` -/

theorem sweptBytes_add (ss : List Slot) (ms : List Nat) (hl : ms.length = ss.length) :
    (ss.map fun s => if s.value.isSome then s.bytes else 0).sum =
    sweptBytes ss ms +
      ((List.zipWith sweepSlot ss ms).map fun s => if s.value.isSome then s.bytes else 0).sum := by
  induction ss generalizing ms with
  | nil => simp [sweptBytes]
  | cons s ss ih =>
    cases ms with
    | nil => simp at hl
    | cons m ms =>
      have := ih ms (by simpa using hl)
      simp only [List.map_cons, List.sum_cons, sweptBytes, List.zipWith_cons_cons, this]
      cases hv : s.value with
      | none => simp [swept, sweepSlot, hv]
      | some o =>
        by_cases hm : m = 0 <;> simp [swept, sweepSlot, hv, hm]
        all_goals omega

theorem collect_slots (h : Heap) (extra : List HeapId) (ok : h.Ok) :
    (h.collect extra).slots = List.zipWith sweepSlot h.slots (h.mark extra).marks ∧
    (h.collect extra).marks = List.replicate h.slots.length 0 := by
  have hl := (mark_iff h extra ok.marksLen ok.marksClear).1
  have := sweepLoop_slots h.slots (h.mark extra).marks 0 h.usedBytes h.freeList hl
  exact ⟨this.1, this.2.1⟩

theorem collect_slot (h : Heap) (extra : List HeapId) (ok : h.Ok) (idx : Nat) :
    (h.collect extra).slots[idx]? =
      (h.slots[idx]?).map fun s => sweepSlot s ((h.mark extra).at idx) := by
  have hl := (mark_iff h extra ok.marksLen ok.marksClear).1
  rw [(collect_slots h extra ok).1, List.getElem?_zipWith]
  cases hs : h.slots[idx]? with
  | none => simp
  | some s =>
    have hlt : idx < (h.mark extra).marks.length := by
      rw [hl]; exact (List.getElem?_eq_some_iff.1 hs).1
    simp [Tracer.at, List.getD_eq_getElem?_getD, List.getElem?_eq_getElem hlt]

theorem collect_get_reachable (h : Heap) (extra : List HeapId) (ok : h.Ok) (id : HeapId)
    (hr : h.Reachable extra id) : (h.collect extra).get id = h.get id := by
  have hlive : (h.get id).isSome := by cases hr <;> assumption
  have hm := ((mark_iff h extra ok.marksLen ok.marksClear).2 id hlive).2 hr
  rw [Heap.get_eq, Heap.get_eq, cellIn, cellIn, collect_slot h extra ok]
  cases hs : h.slots[id.index]? with
  | none => simp
  | some s =>
    have : sweepSlot s ((h.mark extra).at id.index) = s := by
      unfold sweepSlot
      split
      · rfl
      · simp [hm]
    simp [this]

theorem collect_get_unreachable (h : Heap) (extra : List HeapId) (ok : h.Ok) (id : HeapId)
    (hr : ¬ h.Reachable extra id) : (h.collect extra).get id = none := by
  rw [Heap.get_eq, cellIn, collect_slot h extra ok]
  cases hs : h.slots[id.index]? with
  | none => simp
  | some s =>
    simp only [Option.map_some]
    cases hv : s.value with
    | none => simp [sweepSlot, hv]
    | some o =>
      by_cases hm : (h.mark extra).at id.index = 0
      · simp [sweepSlot, hv, hm]
      · have hsw : sweepSlot s ((h.mark extra).at id.index) = s := by simp [sweepSlot, hm]
        rw [hsw]
        by_cases hg : s.generation = id.gen
        · exfalso
          have hget : h.get id = some o := by
            rw [Heap.get_eq]; exact cellIn_eq_some.2 ⟨s, hs, hg, hv⟩
          exact hr (((mark_iff h extra ok.marksLen ok.marksClear).2 id (by simp [hget])).1 hm)
        · simp [hg]

theorem collect_ok (h : Heap) (extra : List HeapId) (ok : h.Ok) : (h.collect extra).Ok := by
  have hl := (mark_iff h extra ok.marksLen ok.marksClear).1
  have hsl := collect_slots h extra ok
  have hfr := sweepLoop_free h.slots (h.mark extra).marks 0 h.usedBytes h.freeList hl
  have hslot := collect_slot h extra ok
  refine ⟨?_, ?_, ?_, ?_, ?_, ?_, ?_⟩
  · rw [hsl.1, hsl.2]; simp [hl]
  · rw [hsl.2]; intro m hm; exact (List.mem_replicate.1 hm).2
  · refine hfr.2 ok.freeNodup ?_
    intro k s m hs _ hsw hk
    obtain ⟨s', hs', hv⟩ := (ok.freeIff _).1 hk
    rw [Nat.zero_add, hs] at hs'
    obtain rfl := Option.some.inj hs'
    simp [swept, hv] at hsw
  · intro idx
    refine (hfr.1 idx).trans ?_
    constructor
    · rintro (hf | ⟨k, s, m, hs, hm, hsw, rfl⟩)
      · obtain ⟨s, hs, hv⟩ := (ok.freeIff _).1 hf
        refine ⟨s, ?_, hv⟩
        rw [hslot, hs]; simp [sweepSlot, hv]
      · rw [Nat.zero_add]
        refine ⟨sweepSlot s m, ?_, ?_⟩
        · rw [hslot, hs]; simp [Tracer.at, hm]
        · obtain ⟨h1, h2⟩ := hsw
          cases hv : s.value with
          | none => simp [hv] at h1
          | some o => simp [sweepSlot, hv, h2]
    · rintro ⟨s, hs, hv⟩
      rw [hslot] at hs
      cases hs0 : h.slots[idx]? with
      | none => simp [hs0] at hs
      | some s0 =>
        simp only [hs0, Option.map_some, Option.some.injEq] at hs
        cases hv0 : s0.value with
        | none => exact .inl ((ok.freeIff _).2 ⟨s0, hs0, hv0⟩)
        | some o =>
          right
          have hlt : idx < (h.mark extra).marks.length := by
            rw [hl]; exact (List.getElem?_eq_some_iff.1 hs0).1
          refine ⟨idx, s0, (h.mark extra).marks[idx], hs0, List.getElem?_eq_getElem hlt, ?_, by simp⟩
          refine ⟨by simp [hv0], ?_⟩
          by_cases hm : (h.mark extra).at idx = 0
          · simpa [Tracer.at, List.getD_eq_getElem?_getD, List.getElem?_eq_getElem hlt] using hm
          · rw [← hs] at hv
            simp [sweepSlot, hm, hv0] at hv
  · intro s hs hv
    obtain ⟨j, hj⟩ := List.mem_iff_getElem?.1 hs
    rw [hslot] at hj
    cases hs0 : h.slots[j]? with
    | none => simp [hs0] at hj
    | some s0 =>
      simp only [hs0, Option.map_some, Option.some.injEq] at hj
      subst hj
      unfold sweepSlot at hv ⊢
      split
      · rename_i h0
        exact ok.freeBytes s0 (List.mem_of_getElem? hs0) (by simpa using h0)
      · rename_i h0
        rw [if_neg h0] at hv
        split
        · rename_i h1
          rw [if_pos h1] at hv
          simp [hv] at h0
        · simp
  · have h3 := (sweepLoop_slots h.slots (h.mark extra).marks 0 h.usedBytes h.freeList hl).2.2
    have h4 := sweptBytes_add h.slots (h.mark extra).marks hl
    show (sweepLoop 0 h.slots (h.mark extra).marks h.usedBytes h.freeList).used = _
    rw [h3, ok.used, Heap.liveBytes, Heap.liveBytes, hsl.1, h4]
    omega
  · intro s hs
    obtain ⟨j, hj⟩ := List.mem_iff_getElem?.1 hs
    rw [hslot] at hj
    cases hs0 : h.slots[j]? with
    | none => simp [hs0] at hj
    | some s0 =>
      simp only [hs0, Option.map_some, Option.some.injEq] at hj
      subst hj
      have := ok.gens s0 (List.mem_of_getElem? hs0)
      unfold sweepSlot
      split
      · exact this
      · split
        · exact this
        · exact Nat.mod_lt _ (by decide)

/-! ## Byte estimate -/

/-- The estimate without saturation. -/
def Heap.rawEst (h : Heap) : Nat :=
  h.usedBytes + h.caps.slots * szSlot + h.caps.marks + h.caps.freeList * szU32 +
  h.caps.worklist * szId + h.caps.rootStack * szValue + h.caps.envRootStack * szId +
  h.caps.persistentRoots * szOptValue + h.caps.persistentRootsFree * szU32 +
  h.caps.registry * szRegistryEntry

theorem satAdd_min (a b c : Nat) : satAdd (min usizeMax a) (satMul b c) = min usizeMax (a + b * c) := by
  unfold satAdd satMul; omega

theorem satAdd_min' (a b : Nat) : satAdd (min usizeMax a) b = min usizeMax (a + b) := by
  unfold satAdd; omega

theorem Heap.estimated_eq (h : Heap) : h.estimated = min usizeMax h.rawEst := by
  have h0 : satAdd 0 h.usedBytes = min usizeMax h.usedBytes := by unfold satAdd; omega
  simp only [Heap.estimated, Heap.rawEst]
  rw [h0, satAdd_min, satAdd_min', satAdd_min, satAdd_min, satAdd_min, satAdd_min, satAdd_min,
    satAdd_min, satAdd_min]

theorem sat_le {h : Heap} {a m : Nat} (hm : m < usizeMax) (hle : satAdd h.estimated a ≤ m) :
    h.rawEst + a ≤ m := by
  rw [Heap.estimated_eq] at hle
  unfold satAdd at hle
  omega

theorem growLoop_ge {cap required n : Nat} {hc : 0 < cap} (h : growLoop cap required hc = some n) :
    required ≤ n ∧ cap ≤ n := by
  fun_induction growLoop cap required hc with
  | case1 cap hc hlt hle ih =>
    have := ih h
    omega
  | case2 => simp at h
  | case3 cap hc hge => simp at h; omega

theorem grownCapacity_ge (cur required : Nat) (h : grownCapacity cur required ≠ usizeMax) :
    cur ≤ grownCapacity cur required ∧ required ≤ grownCapacity cur required := by
  unfold grownCapacity at h ⊢
  split
  · omega
  · rename_i hc
    rw [if_neg hc] at h
    cases hg : growLoop (max cur minVecCapacity) required
      (Nat.lt_of_lt_of_le minVecCapacity_pos (Nat.le_max_right _ _)) with
    | none => simp [hg] at h
    | some n =>
      have := growLoop_ge hg
      simp
      omega

theorem reserveTo_spec {elem cur required a m : Nat} (hm : m < usizeMax)
    (hg : a + growthBytes elem cur required ≤ m) :
    ∃ n, reserveTo cur required = some n ∧ cur ≤ n ∧ required ≤ n ∧
      n * elem = cur * elem + growthBytes elem cur required := by
  unfold reserveTo
  split
  · rename_i hc
    have hgc : grownCapacity cur required = cur := by simp [grownCapacity, hc]
    refine ⟨cur, rfl, Nat.le_refl _, hc, ?_⟩
    unfold growthBytes at hg ⊢
    simp only [hgc] at hg ⊢
    split
    · rename_i hx; rw [if_pos hx] at hg; omega
    · simp [satMul]
  · have hne : grownCapacity cur required ≠ usizeMax := by
      intro hx
      unfold growthBytes at hg
      simp [hx] at hg
      omega
    have hge := grownCapacity_ge cur required hne
    simp only [hne, if_false]
    refine ⟨_, rfl, hge.1, hge.2, ?_⟩
    have hgb : growthBytes elem cur required = (grownCapacity cur required - cur) * elem := by
      unfold growthBytes at hg ⊢
      simp only [hne, if_false] at hg ⊢
      unfold satMul at hg ⊢
      omega
    rw [hgb, ← Nat.add_mul]
    congr 1
    omega

/-- Fields of the heap that a collection leaves alone. -/
theorem collect_frame (h : Heap) (extra : List HeapId) :
    (h.collect extra).maxBytes = h.maxBytes ∧ (h.collect extra).caps = h.caps ∧
    (h.collect extra).rootStack = h.rootStack ∧ (h.collect extra).envRootStack = h.envRootStack ∧
    (h.collect extra).persistentRoots = h.persistentRoots ∧
    (h.collect extra).persistentRootsFree = h.persistentRootsFree ∧
    (h.collect extra).symbolRegistry = h.symbolRegistry ∧
    (h.collect extra).nextSymbolId = h.nextSymbolId ∧ (h.collect extra).gcRuns = h.gcRuns + 1 ∧
    (h.collect extra).gcThreshold = h.gcThreshold :=
  ⟨rfl, rfl, rfl, rfl, rfl, rfl, rfl, rfl, rfl, rfl⟩

theorem collect_used_le (h : Heap) (extra : List HeapId) (ok : h.Ok) :
    (h.collect extra).usedBytes ≤ h.usedBytes := by
  have hl := (mark_iff h extra ok.marksLen ok.marksClear).1
  have h3 := (sweepLoop_slots h.slots (h.mark extra).marks 0 h.usedBytes h.freeList hl).2.2
  show (sweepLoop 0 h.slots (h.mark extra).marks h.usedBytes h.freeList).used ≤ _
  rw [h3]; omega

/-- `ensure` either leaves the heap alone or collects once; on success there is room. -/
theorem ensure_cases (h : Heap) (add : Heap → Nat) (extra : List HeapId) :
    ((h.ensure add extra).2 = h ∨ (h.ensure add extra).2 = h.collect extra) ∧
    ∀ u, (h.ensure add extra).1 = .ok u → h.maxBytes < usizeMax →
      (h.ensure add extra).2.rawEst + add (h.ensure add extra).2 ≤ h.maxBytes := by
  unfold Heap.ensure
  simp only
  by_cases hc : satAdd h.estimated (add h) > h.gcThreshold
  · simp only [hc, if_true]
    by_cases hm : satAdd (h.collect extra).estimated (add (h.collect extra)) > (h.collect extra).maxBytes
    · simp [hm]
    · simp only [hm, if_false]
      refine ⟨by simp, fun u _ hlt => sat_le (h := h.collect extra) hlt ?_⟩
      simpa [collect_frame] using hm
  · simp only [hc, if_false]
    by_cases hm : satAdd h.estimated (add h) > h.maxBytes
    · simp [hm]
    · simp only [hm, if_false]
      refine ⟨by simp, fun u _ hlt => sat_le (h := h) hlt ?_⟩
      simpa using hm

/-! ## The accounting part of the invariant -/

/-- Accounting invariant: heap tables consistent and within the limit. -/
structure Heap.Acc (h : Heap) : Prop where
  ok : h.Ok
  lim : h.rawEst ≤ h.maxBytes
  max : h.maxBytes < usizeMax

theorem Heap.Ok.congr {h h' : Heap} (ok : h.Ok) (h1 : h'.slots = h.slots) (h2 : h'.marks = h.marks)
    (h3 : h'.freeList = h.freeList) (h4 : h'.usedBytes = h.usedBytes) : h'.Ok := by
  obtain ⟨a, b, c, d, e, f, g⟩ := ok
  refine ⟨?_, ?_, ?_, ?_, ?_, ?_, ?_⟩
  · rw [h1, h2]; exact a
  · rw [h2]; exact b
  · rw [h3]; exact c
  · rw [h1, h3]; exact d
  · rw [h1]; exact e
  · rw [Heap.liveBytes, h1, h4]; exact f
  · rw [h1]; exact g

theorem collect_acc (h : Heap) (extra : List HeapId) (a : h.Acc) : (h.collect extra).Acc := by
  refine ⟨collect_ok h extra a.ok, ?_, a.max⟩
  have := collect_used_le h extra a.ok
  have h1 := a.lim
  have h2 := collect_frame h extra
  unfold Heap.rawEst at h1 ⊢
  rw [h2.1, h2.2.1]
  omega

theorem ensure_acc (h : Heap) (add : Heap → Nat) (extra : List HeapId) (a : h.Acc) :
    (h.ensure add extra).2.Acc := by
  rcases (ensure_cases h add extra).1 with e | e <;> rw [e]
  · exact a
  · exact collect_acc h extra a

theorem ensure_frame (h : Heap) (add : Heap → Nat) (extra : List HeapId) :
    (h.ensure add extra).2.maxBytes = h.maxBytes ∧ (h.ensure add extra).2.caps = h.caps ∧
    (h.ensure add extra).2.rootStack = h.rootStack ∧
    (h.ensure add extra).2.envRootStack = h.envRootStack ∧
    (h.ensure add extra).2.persistentRoots = h.persistentRoots ∧
    (h.ensure add extra).2.persistentRootsFree = h.persistentRootsFree ∧
    (h.ensure add extra).2.symbolRegistry = h.symbolRegistry ∧
    (h.ensure add extra).2.nextSymbolId = h.nextSymbolId := by
  rcases (ensure_cases h add extra).1 with e | e <;> rw [e]
  · simp
  · have := collect_frame h extra
    simp [this]

/-- Filling a free slot that has been taken off the free list. -/
theorem fillSlot_ok {h : Heap} {idx : Nat} {s : Slot} (obj : HeapObject) (bytes : Nat)
    (hml : h.marks.length = h.slots.length) (hmc : ∀ m ∈ h.marks, m = 0)
    (hfn : h.freeList.Nodup) (hidx : h.slots[idx]? = some s) (hsv : s.value = none)
    (hfi : ∀ i, i ∈ h.freeList ↔ (i ≠ idx ∧ ∃ s, h.slots[i]? = some s ∧ s.value = none))
    (hfb : ∀ s ∈ h.slots, s.value = none → s.bytes = 0 ∧ s.hostSlots = none)
    (hu : h.usedBytes = h.liveBytes) (hg : ∀ s ∈ h.slots, s.generation < u32Mod)
    (hroom : h.usedBytes + bytes ≤ usizeMax) : (h.fillSlot idx obj bytes).Ok := by
  unfold Heap.fillSlot
  refine ⟨?_, hmc, hfn, ?_, ?_, ?_, ?_⟩
  · simpa using hml
  · intro i
    rw [hfi i]
    simp only [List.getElem?_modify]
    constructor
    · rintro ⟨hne, s', hs', hv⟩
      exact ⟨s', by rw [hs']; simp [Ne.symm hne], hv⟩
    · rintro ⟨s', hs', hv⟩
      cases hi : h.slots[i]? with
      | none => simp [hi] at hs'
      | some s0 =>
        simp only [hi, Option.map_eq_map, Option.map_some, Option.some.injEq] at hs'
        by_cases he : idx = i
        · simp only [he, if_true] at hs'
          rw [← hs'] at hv; simp at hv
        · rw [if_neg he] at hs'
          exact ⟨fun hx => he hx.symm, s0, rfl, by rw [hs']; exact hv⟩
  · exact forall_mem_modify hfb (by intro a _ h; simp at h)
  · have hsum := sum_modify (fun s : Slot => if s.value.isSome then s.bytes else 0)
      (fun s => { s with value := some obj, hostSlots := none, bytes := bytes }) h.slots idx s hidx
    simp only [hsv, Option.isSome_none, Bool.false_eq_true, if_false, Nat.add_zero,
      Option.isSome_some, if_true] at hsum
    simp only [Heap.liveBytes] at hu ⊢
    rw [hsum, ← hu, satAdd]
    omega
  · exact forall_mem_modify hg (fun a ha => hg a (List.mem_of_getElem? ha))

/-- The slot an allocation uses and the state just before it is filled. -/
theorem alloc_cases (h : Heap) (obj : HeapObject) (bytes : Nat) (a : h.Acc) :
    (∃ e, (h.allocUnchecked obj bytes).1 = .error e ∧
      (h.allocUnchecked obj bytes).2 = (h.ensure (Heap.additionalAlloc bytes) []).2) ∨
    (∃ (idx : Nat) (s : Slot) (h2 : Heap), (h.allocUnchecked obj bytes) = (.ok ⟨idx, s.generation⟩, h2.fillSlot idx obj bytes) ∧
      h2.slots[idx]? = some s ∧ s.value = none ∧
      (∀ (i : Nat) s', (h.ensure (Heap.additionalAlloc bytes) []).2.slots[i]? = some s' →
        h2.slots[i]? = some s') ∧
      ((h.ensure (Heap.additionalAlloc bytes) []).2.slots[idx]? = some s ∨
        (h.ensure (Heap.additionalAlloc bytes) []).2.slots[idx]? = none) ∧
      (∀ (i : Nat), i ≠ idx → h2.slots[i]? = (h.ensure (Heap.additionalAlloc bytes) []).2.slots[i]?) ∧
      h2.rootStack = h.rootStack ∧ h2.envRootStack = h.envRootStack ∧
      h2.persistentRoots = h.persistentRoots ∧ h2.persistentRootsFree = h.persistentRootsFree ∧
      h2.symbolRegistry = h.symbolRegistry ∧ h2.nextSymbolId = h.nextSymbolId ∧
      h2.gcRuns = (h.ensure (Heap.additionalAlloc bytes) []).2.gcRuns ∧
      (h2.fillSlot idx obj bytes).Acc) := by
  have hfr := ensure_frame h (Heap.additionalAlloc bytes) []
  have hacc := ensure_acc h (Heap.additionalAlloc bytes) [] a
  have hroom := (ensure_cases h (Heap.additionalAlloc bytes) []).2
  unfold Heap.allocUnchecked
  generalize h.ensure (Heap.additionalAlloc bytes) [] = r at *
  obtain ⟨res, h1⟩ := r
  cases res with
  | error e => exact .inl ⟨e, rfl, rfl⟩
  | ok u =>
    right
    have hroom := hroom u rfl a.max
    simp only at hroom hfr hacc ⊢
    obtain ⟨hmax, hcaps, hrs, hers, hpr, hprf, hreg, hsym⟩ := hfr
    have ok1 := hacc.ok
    cases hfl : h1.freeList with
    | cons idx rest =>
      simp only
      have hmem : idx ∈ h1.freeList := by rw [hfl]; simp
      obtain ⟨s, hs, hv⟩ := (ok1.freeIff idx).1 hmem
      have hnd := ok1.freeNodup
      rw [hfl, List.nodup_cons] at hnd
      have hadd : Heap.additionalAlloc bytes h1 = bytes := by simp [Heap.additionalAlloc, hfl]
      rw [hadd] at hroom
      have hm := hacc.max
      have hu : h1.usedBytes + bytes ≤ usizeMax := by
        unfold Heap.rawEst at hroom; omega
      refine ⟨idx, s, { h1 with freeList := rest }, ?_, hs, hv, fun _ _ h => h, .inl hs,
        fun _ _ => rfl, hrs, hers, hpr, hprf, hreg, hsym, rfl, ?_, ?_, ?_⟩
      · simp [Heap.genAt, hs]
      · refine fillSlot_ok obj bytes ok1.marksLen ok1.marksClear hnd.2 hs hv ?_ ok1.freeBytes
          ok1.used ok1.gens hu
        intro i
        have := ok1.freeIff i
        simp only [hfl, List.mem_cons] at this
        constructor
        · intro hi
          exact ⟨fun hx => hnd.1 (hx ▸ hi), this.1 (.inr hi)⟩
        · rintro ⟨hne, hx⟩
          rcases this.2 hx with h | h
          · exact absurd h hne
          · exact h
      · simp only [Heap.rawEst, Heap.fillSlot, satAdd] at hroom ⊢
        omega
      · simpa [Heap.fillSlot] using hm
    | nil =>
      simp only
      have hadd : Heap.additionalAlloc bytes h1 = satAdd bytes h1.additionalNewSlot := by
        simp [Heap.additionalAlloc, hfl]
      rw [hadd] at hroom
      have hm := hacc.max
      have hma := a.max
      have hroom2 : h1.rawEst + bytes + growthBytes szSlot h1.caps.slots (h1.slots.length + 1) +
          growthBytes 1 h1.caps.marks (h1.slots.length + 1) +
          growthBytes szU32 h1.caps.freeList (h1.slots.length + 1) +
          growthBytes szId h1.caps.worklist (h1.slots.length + 1) ≤ h.maxBytes := by
        unfold satAdd Heap.additionalNewSlot satAdd at hroom
        simp only at hroom
        omega
      obtain ⟨c1, hc1, _, _, hc1e⟩ := reserveTo_spec (elem := szSlot) (a := 0) hma
        (cur := h1.caps.slots) (required := h1.slots.length + 1) (by omega)
      obtain ⟨c2, hc2, _, _, hc2e⟩ := reserveTo_spec (elem := 1) (a := 0) hma
        (cur := h1.caps.marks) (required := h1.slots.length + 1) (by omega)
      obtain ⟨c3, hc3, _, _, hc3e⟩ := reserveTo_spec (elem := szU32) (a := 0) hma
        (cur := h1.caps.freeList) (required := h1.slots.length + 1) (by omega)
      obtain ⟨c4, hc4, _, _, hc4e⟩ := reserveTo_spec (elem := szId) (a := 0) hma
        (cur := h1.caps.worklist) (required := h1.slots.length + 1) (by omega)
      have hres : h1.reserveNewSlot = some { h1 with caps := { h1.caps with
          slots := c1, marks := c2, freeList := c3, worklist := c4 } } := by
        simp [Heap.reserveNewSlot, hc1, hc2, hc3, hc4]
      simp only [hres]
      have hnone : h1.slots[h1.slots.length]? = none := by simp
      have hu : h1.usedBytes + bytes ≤ usizeMax := by
        unfold Heap.rawEst at hroom2; omega
      refine ⟨h1.slots.length, Slot.new, { h1 with
          slots := h1.slots ++ [Slot.new], marks := h1.marks ++ [0], caps :=
            { h1.caps with slots := c1, marks := c2, freeList := c3, worklist := c4 } },
        ?_, ?_, rfl, ?_, .inr hnone, ?_, hrs, hers, hpr, hprf,
        hreg, hsym, rfl, ?_, ?_, ?_⟩
      · simp [Heap.genAt]
      · simp
      · intro i s' hs'
        have := (List.getElem?_eq_some_iff.1 hs').1
        simp only [List.getElem?_append_left this]
        exact hs'
      · intro i hi
        simp only [List.getElem?_append]
        split
        · rfl
        · have : h1.slots.length < i := by omega
          rw [List.getElem?_eq_none (by simp; omega), List.getElem?_eq_none (by omega)]
      · refine fillSlot_ok (s := Slot.new) obj bytes ?_ ?_ ok1.freeNodup ?_ rfl ?_ ?_ ?_ ?_ hu
        · simp [ok1.marksLen]
        · intro m hmm
          simp only [List.mem_append, List.mem_singleton] at hmm
          rcases hmm with hmm | hmm
          · exact ok1.marksClear m hmm
          · exact hmm
        · simp
        · intro i
          simp only [hfl, List.not_mem_nil, false_iff, not_and, not_exists]
          intro hi s' hs' hv'
          simp only [List.getElem?_append] at hs'
          split at hs'
          · have := (ok1.freeIff i).2 ⟨s', hs', hv'⟩
            rw [hfl] at this; simp at this
          · rw [List.getElem?_eq_none (by simp; omega)] at hs'
            simp at hs'
        · intro s' hs' hv'
          simp only [List.mem_append, List.mem_singleton] at hs'
          rcases hs' with hs' | hs'
          · exact ok1.freeBytes s' hs' hv'
          · subst hs'; exact ⟨rfl, rfl⟩
        · simp only [Heap.liveBytes, List.map_append, List.sum_append]
          rw [ok1.used]; simp [Heap.liveBytes, Slot.new]
        · intro s' hs'
          simp only [List.mem_append, List.mem_singleton] at hs'
          rcases hs' with hs' | hs'
          · exact ok1.gens s' hs'
          · subst hs'; decide
      · simp only [Heap.rawEst, Heap.fillSlot, satAdd] at hroom2 ⊢
        omega
      · simpa [Heap.fillSlot] using hm

end Verif.Heap
