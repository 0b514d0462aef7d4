import Verif.Heap.Ops

/-! # How heaps evolve along a history (helper lemmas). -/

namespace Verif.Heap

/-! ## Cells after each kind of update -/

theorem cellIn_modify (slots : List Slot) (idx : Nat) (f : Slot → Slot) (s : Slot)
    (hs : slots[idx]? = some s) (hg : (f s).generation = s.generation) (i : HeapId) :
    cellIn (slots.modify idx f) i =
      if i = ⟨idx, s.generation⟩ then (f s).value else if i.index = idx then none
        else cellIn slots i := by
  unfold cellIn
  rw [List.getElem?_modify]
  obtain ⟨ii, ig⟩ := i
  by_cases he : idx = ii
  · subst he
    simp only [hs, Option.map_eq_map, Option.map_some, if_true, hg, HeapId.mk.injEq, true_and]
    by_cases hgen : ig = s.generation
    · simp [hgen]
    · have : ¬ s.generation = ig := fun h => hgen h.symm
      simp [hgen, this]
  · have he' : ¬ ii = idx := fun h => he h.symm
    cases slots[ii]? with
    | none => simp [he']
    | some s' => simp [he, he']

/-- Result of a successful or failed allocation, in terms of `get`. -/
theorem alloc_get (h : Heap) (obj : HeapObject) (bytes : Nat) (a : h.Acc) :
    ∃ hE, GcMaybe h [] hE ∧
      ((∃ e, h.allocUnchecked obj bytes = (.error e, hE)) ∨
       (∃ id h', h.allocUnchecked obj bytes = (.ok id, h') ∧ hE.get id = none ∧
        (∀ i, h'.get i = if i = id then some obj else hE.get i) ∧
        h'.rootStack = h.rootStack ∧ h'.envRootStack = h.envRootStack ∧
        h'.persistentRoots = h.persistentRoots ∧
        h'.persistentRootsFree = h.persistentRootsFree ∧
        h'.symbolRegistry = h.symbolRegistry ∧ h'.nextSymbolId = h.nextSymbolId)) := by
  refine ⟨(h.ensure (Heap.additionalAlloc bytes) []).2, ensure_gc _ _ _, ?_⟩
  rcases alloc_cases h obj bytes a with ⟨e, h1, h2⟩ | ⟨idx, s, h2, he, hs, hv, h3, h4, h5, r1, r2, r3,
    r4, r5, r6, _, _⟩
  · left
    exact ⟨e, Prod.ext h1 h2⟩
  · right
    refine ⟨_, _, he, ?_, ?_, r1, r2, r3, r4, r5, r6⟩
    · rw [Heap.get_eq, cellIn]
      rcases h4 with h4 | h4 <;> rw [h4] <;> simp [hv]
    · intro i
      rw [Heap.get_eq, Heap.fillSlot]
      simp only
      rw [cellIn_modify _ idx _ s hs rfl]
      split
      · rfl
      · rw [Heap.get_eq]
        split
        · rename_i hi
          unfold cellIn
          rw [hi]
          rcases h4 with h4 | h4 <;> rw [h4] <;> simp [hv]
        · rename_i hi
          unfold cellIn
          rw [h5 _ hi]

/-! ## Generations and the registry: facts that need no caller obligations -/

/-- How a slot may change while at most `n` collections happen: its generation grows by `d ≤ n`
(modulo 2^32), and an occupied slot can only have been emptied if `d ≥ 1`. -/
def SlotEv (n : Nat) (s s' : Slot) : Prop :=
  ∃ d, d ≤ n ∧ s'.generation = (s.generation + d) % u32Mod ∧
    (s.value.isSome → d = 0 → s'.value.isSome)

/-- Evolution of a heap. -/
structure Ev (h h' : Heap) : Prop where
  runs : h.gcRuns ≤ h'.gcRuns
  slots : ∀ (idx : Nat) (s : Slot), h.slots[idx]? = some s →
    ∃ s', h'.slots[idx]? = some s' ∧ SlotEv (h'.gcRuns - h.gcRuns) s s'
  reg : ∀ e ∈ h.symbolRegistry, e ∈ h'.symbolRegistry
  frozen : ∀ e ∈ h.symbolRegistry, ∀ i o, i = e.1 ∨ i = e.2 → h.get i = some o → o.tag < 2 →
    h'.get i = some o

theorem Ev.trans {a b c : Heap} (h1 : Ev a b) (h2 : Ev b c) : Ev a c := by
  refine ⟨Nat.le_trans h1.runs h2.runs, ?_, fun e he => h2.reg e (h1.reg e he), ?_⟩
  · intro idx s hs
    obtain ⟨s', hs', d1, hd1, hg1, hv1⟩ := h1.slots idx s hs
    obtain ⟨s'', hs'', d2, hd2, hg2, hv2⟩ := h2.slots idx s' hs'
    refine ⟨s'', hs'', d1 + d2, ?_, ?_, ?_⟩
    · have := h1.runs; have := h2.runs; omega
    · rw [hg2, hg1, ← Nat.add_assoc, Nat.mod_add_mod]
    · intro hv hd
      exact hv2 (hv1 hv (by omega)) (by omega)
  · intro e he i o hi ho ht
    exact h2.frozen e (h1.reg e he) i o hi (h1.frozen e he i o hi ho ht) ht

/-- A change that keeps slots, collection count and registry. -/
theorem Ev.frame {h h' : Heap} (ok : h.Ok) (h1 : h'.slots = h.slots) (h2 : h'.gcRuns = h.gcRuns)
    (h3 : h'.symbolRegistry = h.symbolRegistry) : Ev h h' := by
  refine ⟨by rw [h2]; exact Nat.le_refl _, ?_, by rw [h3]; exact fun _ h => h, ?_⟩
  · intro idx s hs
    refine ⟨s, by rw [h1]; exact hs, 0, by omega, ?_, fun h _ => h⟩
    have := ok.gens s (List.mem_of_getElem? hs)
    rw [Nat.add_zero, Nat.mod_eq_of_lt this]
  · intro e _ i o _ ho _
    rw [Heap.get_eq, h1, ← Heap.get_eq]; exact ho

theorem Ev.refl {h : Heap} (ok : h.Ok) : Ev h h := Ev.frame ok rfl rfl rfl

theorem registry_isRoot {h : Heap} {E : List HeapId} {e : HeapId × HeapId} (he : e ∈ h.symbolRegistry)
    {i : HeapId} (hi : i = e.1 ∨ i = e.2) : h.IsRoot E i := by
  rcases hi with rfl | rfl
  · exact .registryKey e.2 he
  · exact .registrySymbol e.1 he

theorem Ev.collect {h : Heap} (ok : h.Ok) (E : List HeapId) : Ev h (h.collect E) := by
  refine ⟨?_, ?_, fun _ h => h, ?_⟩
  · show h.gcRuns ≤ h.gcRuns + 1; omega
  · intro idx s hs
    refine ⟨_, by rw [collect_slot h E ok, hs]; rfl, ?_⟩
    have hgen := ok.gens s (List.mem_of_getElem? hs)
    show SlotEv _ s (sweepSlot s _)
    unfold sweepSlot
    split
    · exact ⟨0, by omega, by rw [Nat.add_zero, Nat.mod_eq_of_lt hgen], fun h _ => h⟩
    · split
      · exact ⟨0, by omega, by rw [Nat.add_zero, Nat.mod_eq_of_lt hgen], fun h _ => h⟩
      · refine ⟨1, ?_, rfl, fun _ h => by omega⟩
        show 1 ≤ h.gcRuns + 1 - h.gcRuns
        omega
  · intro e he i o hi ho _
    rw [collect_get_reachable h E ok i (.root (registry_isRoot he hi) (by simp [ho])), ho]

theorem Ev.gc {h h1 : Heap} {E : List HeapId} (ok : h.Ok) (g : GcMaybe h E h1) : Ev h h1 := by
  rcases g with rfl | rfl
  · exact .refl ok
  · exact .collect ok E

theorem Ev.ensure {h : Heap} (ok : h.Ok) (add : Heap → Nat) (E : List HeapId) :
    Ev h (h.ensure add E).2 := .gc ok (ensure_gc h add E)

theorem Ev.alloc {h : Heap} (a : h.Acc) (o : HeapObject) (b : Nat) : Ev h (h.allocUnchecked o b).2 := by
  have hev := Ev.ensure a.ok (Heap.additionalAlloc b) []
  rcases alloc_cases h o b a with ⟨e, h1, h2⟩ | ⟨idx, s, h2, he, hs, hv, h3, h4, h5, r1, r2, r3,
    r4, r5, r6, r7, hac⟩
  · rw [h2]; exact hev
  · rw [he]
    refine hev.trans ?_
    have hacE := ensure_acc h (Heap.additionalAlloc b) [] a
    have hreg := (ensure_frame h (Heap.additionalAlloc b) []).2.2.2.2.2.2.1
    generalize (h.ensure (Heap.additionalAlloc b) []).2 = hE at *
    refine ⟨by simp [Heap.fillSlot, r7], ?_, ?_, ?_⟩
    · intro i s' hs'
      have h3' := h3 i s' hs'
      have hgen := hacE.ok.gens s' (List.mem_of_getElem? hs')
      simp only [Heap.fillSlot, List.getElem?_modify, h3', Option.map_eq_map, Option.map_some]
      refine ⟨_, rfl, 0, by omega, ?_, ?_⟩
      · split <;> rw [Nat.add_zero, Nat.mod_eq_of_lt hgen]
      · intro hv' _
        split <;> simp [hv']
    · intro e he
      simpa [Heap.fillSlot, r5, ← hreg] using he
    · intro e he i o' hi ho' _
      rw [Heap.get_eq] at ho' ⊢
      obtain ⟨s', hs', hg', hv'⟩ := cellIn_eq_some.1 ho'
      have hne : i.index ≠ idx := by
        intro hx
        rcases h4 with h4 | h4
        · rw [hx, h4] at hs'; obtain rfl := Option.some.inj hs'
          rw [hv] at hv'; simp at hv'
        · rw [hx, h4] at hs'; simp at hs'
      refine cellIn_eq_some.2 ⟨s', ?_, hg', hv'⟩
      simp only [Heap.fillSlot, List.getElem?_modify, Ne.symm hne, if_false, h5 _ hne, hs']
      rfl

theorem Ev.pushRoots {h : Heap} (a : h.Acc) (vs : List Value) (E : List HeapId) :
    Ev h (h.pushRoots vs E).2 := by
  obtain ⟨h1, hg, ⟨e, he⟩ | ⟨c, he⟩⟩ := (pushRoots_cases h vs E a).1
  · rw [he]; exact .gc a.ok hg
  · rw [he]
    exact (Ev.gc a.ok hg).trans (.frame (hg.acc a).ok rfl rfl rfl)

theorem Ev.pushEnvRoot {h : Heap} (a : h.Acc) (v : HeapId) : Ev h (h.pushEnvRoot v).2 := by
  obtain ⟨h1, hg, ⟨e, he⟩ | ⟨c, he⟩⟩ := (pushEnvRoot_cases h v a).1
  · rw [he]; exact .gc a.ok hg
  · rw [he]
    exact (Ev.gc a.ok hg).trans (.frame (hg.acc a).ok rfl rfl rfl)

theorem Ev.addRoot {h : Heap} (a : h.Acc) (v : Value) : Ev h (h.addRoot v).2 := by
  obtain ⟨h1, hg, ⟨_, e, he⟩ | ⟨_, c1, c2, he⟩ | ⟨idx, rest, _, _, he⟩⟩ := (addRoot_cases h v a).1
  · rw [he]; exact .gc a.ok hg
  · rw [he]; exact (Ev.gc a.ok hg).trans (.frame (hg.acc a).ok rfl rfl rfl)
  · rw [he]; exact .frame a.ok rfl rfl rfl

theorem Ev.truncate {h : Heap} (ok : h.Ok) (n m : Nat) : Ev h (h.truncateRoots n m) :=
  .frame ok rfl rfl rfl

theorem Ev.writeCell {h : Heap} (a : h.Acc) (id : HeapId) (o : HeapObject) (b : Nat) :
    Ev h (h.writeCell id o b).2 := by
  obtain ⟨e, ⟨_, hg⟩ | ⟨cur, h1, s, hg, hcur, ht1, ht2, hp, hs, hv, _, hsl, r1, r2, r3, r4, r5, r6⟩⟩ :=
    (writeCell_cases h id o b a).1
  · exact .gc a.ok hg
  · have hev := Ev.gc a.ok hg
    have hac := hg.acc a
    refine ⟨by rw [r6]; exact hev.runs, ?_, by rw [r5]; exact fun _ h => h, ?_⟩
    · intro idx s0 hs0
      obtain ⟨s1, hs1, hsev⟩ := hev.slots idx s0 hs0
      rw [hsl, r6]
      simp only [List.getElem?_modify, hs1, Option.map_eq_map, Option.map_some]
      refine ⟨_, rfl, ?_⟩
      obtain ⟨d, h1, h2, h3⟩ := hsev
      refine ⟨d, h1, ?_, ?_⟩
      · split <;> exact h2
      · intro hx hy
        split
        · rfl
        · exact h3 hx hy
    · intro e he i oi hi hoi hti
      have h1get := hev.frozen e he i oi hi hoi hti
      rw [Heap.get_eq] at h1get ⊢
      rw [hsl]
      obtain ⟨s', hs', hg', hv'⟩ := cellIn_eq_some.1 h1get
      refine cellIn_eq_some.2 ⟨s', ?_, hg', hv'⟩
      have hne : id.index ≠ i.index := by
        intro hx
        have : i = id := by
          rw [Heap.get_eq] at hoi hcur
          exact valid_index_inj (slots := h.slots) (by simp [hoi]) (by simp [hcur]) hx.symm
        subst this
        rw [hcur] at hoi; obtain rfl := Option.some.inj hoi
        omega
      simp [List.getElem?_modify, hne, hs']

theorem withBase_tag (o : HeapObject) (b : ObjectBase) : (o.withBase b).tag = o.tag := by
  cases o <;> rfl

theorem Ev.setPrototype {h : Heap} (ok : h.Ok) (obj : HeapId) (p : Option HeapId) :
    Ev h (h.setPrototype obj p).2 := by
  rcases setPrototype_cases h obj p with ⟨e, he⟩ | ⟨b, hb, _, _, he⟩
  · rw [he]; exact .refl ok
  · rw [he]
    refine ⟨Nat.le_refl _, ?_, fun _ h => h, ?_⟩
    · intro idx s hs
      simp only [List.getElem?_modify, hs, Option.map_eq_map, Option.map_some]
      refine ⟨_, rfl, 0, by omega, ?_, ?_⟩
      · have := ok.gens s (List.mem_of_getElem? hs)
        split <;> rw [Nat.add_zero, Nat.mod_eq_of_lt this]
      · intro hx _
        split
        · simpa using hx
        · exact hx
    · intro e he' i o hi ho ht
      rw [Heap.get_eq] at ho ⊢
      obtain ⟨s', hs', hg', hv'⟩ := cellIn_eq_some.1 ho
      simp only
      by_cases hx : obj.index = i.index
      · refine cellIn_eq_some.2 ⟨_, by rw [List.getElem?_modify, hs']; rfl, ?_, ?_⟩
        · simp [hx, hg']
        · simp only [hx, if_true, hv', Option.map_some]
          cases o <;> simp_all [HeapObject.tag, HeapObject.withBase]
      · exact cellIn_eq_some.2 ⟨s', by simp [List.getElem?_modify, hx, hs'], hg', hv'⟩

/-! ## Composing operations -/

/-- Accounting is kept and the heap evolves. -/
def Tr (h h' : Heap) : Prop := h.Acc → h'.Acc ∧ Ev h h'

theorem Tr.trans {a b c : Heap} (h1 : Tr a b) (h2 : Tr b c) : Tr a c := fun ha =>
  ⟨(h2 (h1 ha).1).1, (h1 ha).2.trans (h2 (h1 ha).1).2⟩

theorem Tr.refl (h : Heap) : Tr h h := fun a => ⟨a, .refl a.ok⟩

theorem Tr.andThen {α β : Type} {h : Heap} {r : Except VmError α × Heap}
    {k : α → Heap → Except VmError β × Heap} (h1 : Tr h r.2) (h2 : ∀ a h, Tr h (k a h).2) :
    Tr h (andThen r k).2 := by
  unfold Verif.Heap.andThen
  split
  · exact h1
  · exact h1.trans (h2 _ _)

theorem Tr.frame {h h' : Heap} (h1 : h'.slots = h.slots) (h2 : h'.marks = h.marks)
    (h3 : h'.freeList = h.freeList) (h4 : h'.usedBytes = h.usedBytes) (h5 : h'.caps = h.caps)
    (h6 : h'.maxBytes = h.maxBytes) (h7 : h'.gcRuns = h.gcRuns)
    (h8 : h'.symbolRegistry = h.symbolRegistry) : Tr h h' := fun a =>
  ⟨a.congr h1 h2 h3 h4 (by have := a.lim; unfold Heap.rawEst at *; rw [h4, h5, h6]; exact this) h6,
    .frame a.ok h1 h7 h8⟩

theorem Tr.truncate (h : Heap) (n m : Nat) : Tr h (h.truncateRoots n m) :=
  Tr.frame rfl rfl rfl rfl rfl rfl rfl rfl

theorem Tr.inScope {α : Type} {h : Heap} {body : Heap → Except VmError α × Heap}
    (hb : Tr h (body h).2) : Tr h (h.inScope body).2 := hb.trans (.truncate _ _ _)

theorem Tr.collect (h : Heap) (E : List HeapId) : Tr h (h.collect E) := fun a =>
  ⟨collect_acc h E a, .collect a.ok E⟩

theorem Tr.ensure (h : Heap) (add : Heap → Nat) (E : List HeapId) : Tr h (h.ensure add E).2 := fun a =>
  ⟨ensure_acc h add E a, .ensure a.ok add E⟩

theorem Tr.pushRoots (h : Heap) (vs : List Value) (E : List HeapId) : Tr h (h.pushRoots vs E).2 :=
  fun a => ⟨(pushRoots_cases h vs E a).2, .pushRoots a vs E⟩

theorem Tr.alloc (h : Heap) (o : HeapObject) (b : Nat) : Tr h (h.allocUnchecked o b).2 := fun a =>
  ⟨alloc_acc h o b a, .alloc a o b⟩

theorem Tr.allocSymbol (h : Heap) (d : Option HeapId) : Tr h (h.allocSymbol d).2 :=
  have h1 : Tr h ({ h with nextSymbolId := (h.nextSymbolId + 1) % 2 ^ 64 } : Heap) :=
    Tr.frame rfl rfl rfl rfl rfl rfl rfl rfl
  h1.trans (.alloc _ _ _)

theorem Tr.newSymbol (h : Heap) (d : Option HeapId) : Tr h (h.newSymbol d).2 :=
  Tr.inScope (Tr.andThen (.pushRoots _ _ _) fun _ _ => Tr.andThen (.ensure _ _ _) fun _ _ =>
    .allocSymbol _ _)

theorem Tr.allocString (h : Heap) (u : List Nat) : Tr h (h.allocString u).2 :=
  Tr.andThen (.ensure _ _ _) fun _ _ => .alloc _ _ _

theorem Tr.allocObject (h : Heap) (p : Option HeapId) (ps : List PropertyEntry) :
    Tr h (h.allocObject p ps).2 :=
  Tr.inScope (Tr.andThen (.pushRoots _ _ _) fun _ _ => Tr.andThen (.ensure _ _ _) fun _ _ =>
    .alloc _ _ _)

/-- The reservation for a registry entry collects at most once and changes one capacity. -/
theorem reserveRegistryInsert_cases (h : Heap) (a : h.Acc) :
    (∃ h1, GcMaybe h [] h1 ∧ ((∃ e, h.reserveRegistryInsert = (.error e, h1)) ∨
      (∃ c, h.reserveRegistryInsert = (.ok (), { h1 with
        caps := { h1.caps with registry := c } })))) ∧
    h.reserveRegistryInsert.2.Acc := by
  unfold Heap.reserveRegistryInsert
  have hc := ensure_cases h (fun h => growthBytes szRegistryEntry h.caps.registry
      (h.symbolRegistry.length + 1)) []
  have hac := ensure_acc h (fun h => growthBytes szRegistryEntry h.caps.registry
      (h.symbolRegistry.length + 1)) [] a
  generalize h.ensure (fun h => growthBytes szRegistryEntry h.caps.registry
      (h.symbolRegistry.length + 1)) [] = r at *
  obtain ⟨res, h1⟩ := r
  have hg : GcMaybe h [] h1 := hc.1
  cases res with
  | error e => exact ⟨⟨h1, hg, .inl ⟨e, rfl⟩⟩, hac⟩
  | ok u =>
    have hac : h1.Acc := hac
    have hroom := hc.2 u rfl a.max
    simp only at hroom
    obtain ⟨c, hcr, _, _, hce⟩ := reserveTo_spec (elem := szRegistryEntry) a.max (a := h1.rawEst) hroom
    have hm := hg.frame.1
    have hlim : ({ h1 with caps := { h1.caps with registry := c } } : Heap).rawEst ≤ h1.maxBytes := by
      simp only [Heap.rawEst] at hroom ⊢
      omega
    have heq : andThen ((Except.ok u : Except VmError Unit), h1) (fun _ h => h.reserveRegistry) =
        (.ok (), { h1 with caps := { h1.caps with registry := c } }) := by
      simp only [andThen, Heap.reserveRegistry, hcr]
    rw [heq]
    exact ⟨⟨h1, hg, .inr ⟨c, rfl⟩⟩, Heap.Acc.congr hac rfl rfl rfl rfl hlim rfl⟩

theorem Tr.reserveRegistryInsert (h : Heap) : Tr h h.reserveRegistryInsert.2 := fun a => by
  refine ⟨(reserveRegistryInsert_cases h a).2, ?_⟩
  obtain ⟨h1, hg, ⟨e, he⟩ | ⟨c, he⟩⟩ := (reserveRegistryInsert_cases h a).1
  · rw [he]; exact .gc a.ok hg
  · rw [he]; exact (Ev.gc a.ok hg).trans (.frame (hg.acc a).ok rfl rfl rfl)

theorem Tr.registryInsertSorted (h : Heap) (k s : HeapId) : Tr h (h.registryInsertSorted k s).2 := by
  unfold Heap.registryInsertSorted
  split
  · exact .refl h
  · split
    · exact .refl h
    · exact .refl h
    · rename_i pos _
      intro a
      refine ⟨Heap.Acc.congr a rfl rfl rfl rfl a.lim rfl, Nat.le_refl _, ?_, ?_, ?_⟩
      · exact (Ev.refl a.ok).slots
      · intro e he
        rw [← List.take_append_drop pos h.symbolRegistry] at he
        simp only [List.mem_append, List.mem_cons] at he ⊢
        rcases he with he | he
        · exact .inl he
        · exact .inr (.inr he)
      · exact (Ev.refl a.ok).frozen

theorem Tr.registryInsert (h : Heap) (k s : HeapId) : Tr h (h.registryInsert k s).2 :=
  Tr.andThen (.reserveRegistryInsert _) fun _ _ => .registryInsertSorted _ _ _

theorem Tr.symbolForCreate (h : Heap) (k : HeapId) : Tr h (h.symbolForCreate k).2 :=
  Tr.inScope (Tr.andThen (.pushRoots _ _ _) fun _ _ => Tr.andThen (.newSymbol _ _) fun _ _ =>
    Tr.andThen (.pushRoots _ _ _) fun _ _ => Tr.andThen (.registryInsert _ _ _) fun _ _ => .refl _)

theorem Tr.symbolFor (h : Heap) (k : HeapId) : Tr h (h.symbolFor k).2 := by
  unfold Heap.symbolFor
  split
  · exact .refl h
  · split
    · exact .refl h
    · exact .refl h
    · exact Tr.andThen (.ensure _ _ _) fun _ _ => .symbolForCreate _ _

theorem Tr.setRoot (h : Heap) (id : Nat) (v : Value) : Tr h (h.setRoot id v) := by
  unfold Heap.setRoot
  split
  · exact Tr.frame rfl rfl rfl rfl rfl rfl rfl rfl
  · exact .refl h

theorem Tr.removeRoot (h : Heap) (id : Nat) : Tr h (h.removeRoot id) := by
  unfold Heap.removeRoot
  split
  · exact Tr.frame rfl rfl rfl rfl rfl rfl rfl rfl
  · exact .refl h

theorem Tr.step (h : Heap) (op : Op) : Tr h (h.step op) := by
  cases op with
  | collect E => exact .collect h E
  | allocString u => exact .allocString h u
  | newSymbol d => exact .newSymbol h d
  | allocObject p ps => exact .allocObject h p ps
  | allocCell o b => exact .alloc h o b
  | writeCell id o b => exact fun a => ⟨(writeCell_cases h id o b a).2, .writeCell a id o b⟩
  | setPrototype o p => exact fun a => ⟨setPrototype_acc h o p a, .setPrototype a.ok o p⟩
  | pushRoots vs => exact .pushRoots h vs []
  | pushEnvRoot e => exact fun a => ⟨(pushEnvRoot_cases h e a).2, .pushEnvRoot a e⟩
  | truncateRoots n m => exact .truncate h n m
  | addRoot v => exact fun a => ⟨(addRoot_cases h v a).2, .addRoot a v⟩
  | setRoot id v => exact .setRoot h id v
  | removeRoot id => exact .removeRoot h id
  | symbolFor k => exact .symbolFor h k

theorem Tr.run (ops : List Op) (h : Heap) : Tr h (h.run ops) := by
  induction ops generalizing h with
  | nil => exact .refl h
  | cons op ops ih => exact (Tr.step h op).trans (ih (h.step op))

/-! ## String comparison and the registry search -/

theorem cmpUnits_refl (a : List Nat) : cmpUnits a a = .eq := by
  induction a with
  | nil => rfl
  | cons x xs ih => simp [cmpUnits, ih]

theorem cmpUnits_eq {a b : List Nat} (h : cmpUnits a b = .eq) : a = b := by
  fun_induction cmpUnits a b with
  | case1 => rfl
  | case2 => simp at h
  | case3 => simp at h
  | case4 => simp at h
  | case5 => simp at h
  | case6 x xs y ys h1 h2 ih =>
    have : x = y := by omega
    rw [this, ih h]

theorem cmpUnits_gt {a b : List Nat} : cmpUnits a b = .gt ↔ cmpUnits b a = .lt := by
  fun_induction cmpUnits a b with
  | case1 => simp [cmpUnits]
  | case2 => simp [cmpUnits]
  | case3 => simp [cmpUnits]
  | case4 x xs y ys h1 => simp [cmpUnits, h1, Nat.lt_asymm h1]
  | case5 x xs y ys h1 h2 => simp [cmpUnits, h2]
  | case6 x xs y ys h1 h2 ih => simp [cmpUnits, h1, h2, ih]

theorem cmpUnits_lt_trans {a b c : List Nat} (h1 : cmpUnits a b = .lt) (h2 : cmpUnits b c = .lt) :
    cmpUnits a c = .lt := by
  induction a generalizing b c with
  | nil =>
    cases b with
    | nil => simp [cmpUnits] at h1
    | cons y ys =>
      cases c with
      | nil => simp [cmpUnits] at h2
      | cons z zs => rfl
  | cons x xs ih =>
    cases b with
    | nil => simp [cmpUnits] at h1
    | cons y ys =>
      cases c with
      | nil => simp [cmpUnits] at h2
      | cons z zs =>
        simp only [cmpUnits] at h1 h2 ⊢
        by_cases hxy : x < y
        · by_cases hyz : y < z
          · simp [show x < z by omega]
          · by_cases hzy : z < y
            · simp [hyz, hzy] at h2
            · simp [show x < z by omega]
        · by_cases hyx : y < x
          · simp [hxy, hyx] at h1
          · simp only [hxy, hyx, if_false] at h1
            by_cases hyz : y < z
            · simp [show x < z by omega]
            · by_cases hzy : z < y
              · simp [hyz, hzy] at h2
              · simp only [hyz, hzy, if_false] at h2
                simp only [show ¬ x < z by omega, show ¬ z < x by omega, if_false]
                exact ih h1 h2

/-- The registry is well formed: keys are strings in strictly increasing order of contents, the
symbols are symbols and all different. -/
structure RegOk (h : Heap) : Prop where
  keys : ∀ e ∈ h.symbolRegistry, ∃ u, h.get e.1 = some (.string u)
  syms : ∀ e ∈ h.symbolRegistry, ∃ n d, h.get e.2 = some (.symbol n d)
  sorted : h.symbolRegistry.Pairwise fun a b =>
    ∀ ua ub, h.getString a.1 = some ua → h.getString b.1 = some ub → cmpUnits ua ub = .lt
  nodup : (h.symbolRegistry.map Prod.snd).Nodup

theorem getString_of_get {h : Heap} {i : HeapId} {u : List Nat} (hg : h.get i = some (.string u)) :
    h.getString i = some u := by simp [Heap.getString, hg]

theorem get_of_getString {h : Heap} {i : HeapId} {u : List Nat} (hg : h.getString i = some u) :
    h.get i = some (.string u) := by
  unfold Heap.getString at hg
  split at hg
  · rename_i heq; rw [heq]; simpa using hg
  · simp at hg

theorem RegOk.preserve {h h' : Heap} (r : RegOk h) (ev : Ev h h')
    (he : h'.symbolRegistry = h.symbolRegistry) : RegOk h' := by
  have hk : ∀ e ∈ h.symbolRegistry, h'.getString e.1 = h.getString e.1 := by
    intro e hm
    obtain ⟨u, hu⟩ := r.keys e hm
    rw [getString_of_get hu,
      getString_of_get (ev.frozen e hm e.1 _ (.inl rfl) hu (by simp [HeapObject.tag]))]
  refine ⟨?_, ?_, ?_, by rw [he]; exact r.nodup⟩
  · rw [he]; intro e hm
    obtain ⟨u, hu⟩ := r.keys e hm
    exact ⟨u, ev.frozen e hm e.1 _ (.inl rfl) hu (by simp [HeapObject.tag])⟩
  · rw [he]; intro e hm
    obtain ⟨n, d, hu⟩ := r.syms e hm
    exact ⟨n, d, ev.frozen e hm e.2 _ (.inr rfl) hu (by simp [HeapObject.tag])⟩
  · rw [he]
    have := r.sorted
    refine List.Pairwise.imp_of_mem ?_ this
    intro a b ha hb hab ua ub hua hub
    rw [hk a ha] at hua
    rw [hk b hb] at hub
    exact hab ua ub hua hub

/-- Contents of the key of registry entry `i`. -/
def Heap.keyAt (h : Heap) (i : Nat) : Option (List Nat) :=
  (h.symbolRegistry[i]?).bind (fun e => h.getString e.1)

theorem RegOk.keyAt_lt {h : Heap} (r : RegOk h) {i j : Nat} {ui uj : List Nat} (hij : i < j)
    (hi : h.keyAt i = some ui) (hj : h.keyAt j = some uj) : cmpUnits ui uj = .lt := by
  unfold Heap.keyAt at hi hj
  obtain ⟨a, ha, hua⟩ := Option.bind_eq_some_iff.1 hi
  obtain ⟨b, hb, hub⟩ := Option.bind_eq_some_iff.1 hj
  obtain ⟨hil, ha'⟩ := List.getElem?_eq_some_iff.1 ha
  obtain ⟨hjl, hb'⟩ := List.getElem?_eq_some_iff.1 hb
  have := List.pairwise_iff_getElem.1 r.sorted i j hil hjl hij
  rw [ha', hb'] at this
  exact this ui uj hua hub

theorem RegOk.keyAt_some {h : Heap} (r : RegOk h) {i : Nat} (hi : i < h.symbolRegistry.length) :
    ∃ u, h.keyAt i = some u := by
  obtain ⟨u, hu⟩ := r.keys _ (List.getElem_mem hi)
  exact ⟨u, by simp [Heap.keyAt, List.getElem?_eq_getElem hi, getString_of_get hu]⟩

theorem registrySearch_spec {h : Heap} (r : RegOk h) (key : List Nat) (low high : Nat)
    (hlh : low ≤ high) (hh : high ≤ h.symbolRegistry.length)
    (hlo : ∀ (i : Nat) (u : List Nat), i < low → h.keyAt i = some u → cmpUnits u key = .lt)
    (hhi : ∀ (i : Nat) (u : List Nat), high ≤ i → h.keyAt i = some u → cmpUnits key u = .lt) :
    (∃ idx, h.registrySearch key low high = some (.inl idx) ∧ h.keyAt idx = some key) ∨
    (∃ pos, h.registrySearch key low high = some (.inr pos) ∧ pos ≤ h.symbolRegistry.length ∧
      (∀ (i : Nat) (u : List Nat), i < pos → h.keyAt i = some u → cmpUnits u key = .lt) ∧
      (∀ (i : Nat) (u : List Nat), pos ≤ i → h.keyAt i = some u → cmpUnits key u = .lt)) := by
  fun_induction Heap.registrySearch h key low high with
  | case1 low high hlt mid hn =>
    exfalso
    obtain ⟨u, hu⟩ := r.keyAt_some (i := mid) (by omega)
    rw [Heap.keyAt, hn] at hu
    simp at hu
  | case2 low high hlt mid mk hm hc ih =>
    refine ih (by omega) hh ?_ hhi
    intro i u hi hu
    rcases Nat.lt_or_ge i mid with h1 | h1
    · exact cmpUnits_lt_trans (r.keyAt_lt h1 hu hm) hc
    · have : i = mid := by omega
      subst this
      rw [Heap.keyAt, hm] at hu
      obtain rfl := Option.some.inj hu
      exact hc
  | case3 low high hlt mid mk hm hc ih =>
    refine ih (by omega) (by omega) hlo ?_
    intro i u hi hu
    rcases Nat.lt_or_ge mid i with h1 | h1
    · exact cmpUnits_lt_trans (cmpUnits_gt.1 hc) (r.keyAt_lt h1 hm hu)
    · have : i = mid := by omega
      subst this
      rw [Heap.keyAt, hm] at hu
      obtain rfl := Option.some.inj hu
      exact cmpUnits_gt.1 hc
  | case4 low high hlt mid mk hm hc =>
    left
    exact ⟨mid, rfl, by rw [Heap.keyAt, hm, cmpUnits_eq hc]⟩
  | case5 low high hge =>
    right
    have : low = high := by omega
    subst this
    exact ⟨low, rfl, hh, hlo, hhi⟩

theorem registrySearch_full {h : Heap} (r : RegOk h) (key : List Nat) :
    (∃ idx, h.registrySearch key 0 h.symbolRegistry.length = some (.inl idx) ∧
      h.keyAt idx = some key) ∨
    (∃ pos, h.registrySearch key 0 h.symbolRegistry.length = some (.inr pos) ∧
      pos ≤ h.symbolRegistry.length ∧
      (∀ (i : Nat) (u : List Nat), i < pos → h.keyAt i = some u → cmpUnits u key = .lt) ∧
      (∀ (i : Nat) (u : List Nat), pos ≤ i → h.keyAt i = some u → cmpUnits key u = .lt)) := by
  refine registrySearch_spec r key 0 _ (by omega) (Nat.le_refl _) ?_ ?_
  · intro i u hi; omega
  · intro i u hi hu
    simp [Heap.keyAt, List.getElem?_eq_none hi] at hu

end Verif.Heap
