import Verif.Heap.Invariants

/-! # What each heap operation does (helper lemmas). -/

namespace Verif.Heap

/-- `h1` is `h` itself or the result of one collection of `h` protecting `E`. -/
def GcMaybe (h : Heap) (E : List HeapId) (h1 : Heap) : Prop := h1 = h ∨ h1 = h.collect E

theorem GcMaybe.acc {h h1 : Heap} {E : List HeapId} (g : GcMaybe h E h1) (a : h.Acc) : h1.Acc := by
  rcases g with rfl | rfl
  · exact a
  · exact collect_acc h E a

theorem GcMaybe.frame {h h1 : Heap} {E : List HeapId} (g : GcMaybe h E h1) :
    h1.maxBytes = h.maxBytes ∧ h1.caps = h.caps ∧ h1.rootStack = h.rootStack ∧
    h1.envRootStack = h.envRootStack ∧ h1.persistentRoots = h.persistentRoots ∧
    h1.persistentRootsFree = h.persistentRootsFree ∧ h1.symbolRegistry = h.symbolRegistry ∧
    h1.nextSymbolId = h.nextSymbolId := by
  rcases g with rfl | rfl
  · simp
  · have := collect_frame h E
    simp [this]

theorem ensure_gc (h : Heap) (add : Heap → Nat) (E : List HeapId) :
    GcMaybe h E (h.ensure add E).2 := (ensure_cases h add E).1

/-- Acc is unaffected by root changes that leave tables and capacities alone. -/
theorem Heap.Acc.congr {h h' : Heap} (a : h.Acc) (h1 : h'.slots = h.slots) (h2 : h'.marks = h.marks)
    (h3 : h'.freeList = h.freeList) (h4 : h'.usedBytes = h.usedBytes)
    (hc : h'.rawEst ≤ h'.maxBytes) (hm : h'.maxBytes = h.maxBytes) : h'.Acc :=
  ⟨a.ok.congr h1 h2 h3 h4, hc, by rw [hm]; exact a.max⟩

theorem pushRoots_cases (h : Heap) (vs : List Value) (E : List HeapId) (a : h.Acc) :
    (∃ h1, GcMaybe h (vs.flatMap Value.refs ++ E) h1 ∧
      ((∃ e, h.pushRoots vs E = (.error e, h1)) ∨
       (∃ c, h.pushRoots vs E = (.ok (), { h1 with
          caps := { h1.caps with rootStack := c }
          rootStack := h1.rootStack ++ vs })))) ∧
    (h.pushRoots vs E).2.Acc := by
  unfold Heap.pushRoots
  split
  · rename_i hv
    have : vs = [] := by simpa using hv
    subst this
    refine ⟨⟨h, .inl rfl, .inr ⟨h.caps.rootStack, ?_⟩⟩, a⟩
    simp
  · simp only
    split
    · have hc := ensure_cases h (fun _ => growthBytes szValue h.caps.rootStack
        (h.rootStack.length + vs.length)) (vs.flatMap Value.refs ++ E)
      have hac := ensure_acc h (fun _ => growthBytes szValue h.caps.rootStack
        (h.rootStack.length + vs.length)) (vs.flatMap Value.refs ++ E) a
      generalize h.ensure (fun _ => growthBytes szValue h.caps.rootStack
        (h.rootStack.length + vs.length)) (vs.flatMap Value.refs ++ E) = r at *
      obtain ⟨res, h1⟩ := r
      have hg : GcMaybe h (vs.flatMap Value.refs ++ E) h1 := hc.1
      cases res with
      | error e => exact ⟨⟨h1, hg, .inl ⟨e, rfl⟩⟩, hac⟩
      | ok u =>
        have hroom := hc.2 u rfl a.max
        simp only at hroom
        rw [← hg.frame.2.1] at hroom
        obtain ⟨c, hcr, _, _, hce⟩ := reserveTo_spec (elem := szValue) a.max (a := h1.rawEst) hroom
        simp only [hcr]
        refine ⟨⟨h1, hg, .inr ⟨c, rfl⟩⟩, Heap.Acc.congr hac rfl rfl rfl rfl ?_ rfl⟩
        have hm := hg.frame.1
        simp only [Heap.rawEst] at hroom ⊢
        omega
    · refine ⟨⟨h, .inl rfl, .inr ⟨h.caps.rootStack, ?_⟩⟩, Heap.Acc.congr a rfl rfl rfl rfl a.lim rfl⟩
      simp

theorem pushEnvRoot_cases (h : Heap) (v : HeapId) (a : h.Acc) :
    (∃ h1, GcMaybe h [v] h1 ∧
      ((∃ e, h.pushEnvRoot v = (.error e, h1)) ∨
       (∃ c, h.pushEnvRoot v = (.ok (), { h1 with
          caps := { h1.caps with envRootStack := c }
          envRootStack := h1.envRootStack ++ [v] })))) ∧
    (h.pushEnvRoot v).2.Acc := by
  unfold Heap.pushEnvRoot
  simp only
  split
  · have hc := ensure_cases h (fun _ => growthBytes szId h.caps.envRootStack
      (h.envRootStack.length + 1)) [v]
    have hac := ensure_acc h (fun _ => growthBytes szId h.caps.envRootStack
      (h.envRootStack.length + 1)) [v] a
    generalize h.ensure (fun _ => growthBytes szId h.caps.envRootStack
      (h.envRootStack.length + 1)) [v] = r at *
    obtain ⟨res, h1⟩ := r
    have hg : GcMaybe h [v] h1 := hc.1
    cases res with
    | error e => exact ⟨⟨h1, hg, .inl ⟨e, rfl⟩⟩, hac⟩
    | ok u =>
      have hroom := hc.2 u rfl a.max
      simp only at hroom
      rw [← hg.frame.2.1] at hroom
      obtain ⟨c, hcr, _, _, hce⟩ := reserveTo_spec (elem := szId) a.max (a := h1.rawEst) hroom
      simp only [hcr]
      refine ⟨⟨h1, hg, .inr ⟨c, rfl⟩⟩, Heap.Acc.congr hac rfl rfl rfl rfl ?_ rfl⟩
      have hm := hg.frame.1
      simp only [Heap.rawEst] at hroom ⊢
      omega
  · refine ⟨⟨h, .inl rfl, .inr ⟨h.caps.envRootStack, ?_⟩⟩, Heap.Acc.congr a rfl rfl rfl rfl a.lim rfl⟩
    simp

theorem addRoot_cases (h : Heap) (v : Value) (a : h.Acc) :
    (∃ h1, GcMaybe h v.refs h1 ∧
      ((h.persistentRootsFree = [] ∧ ∃ e, h.addRoot v = (.error e, h1)) ∨
       (h.persistentRootsFree = [] ∧
        ∃ c1 c2, h.addRoot v = (.ok h1.persistentRoots.length, { h1 with
          caps := { h1.caps with persistentRoots := c1, persistentRootsFree := c2 },
          persistentRoots := h1.persistentRoots ++ [some v] })) ∨
       (∃ idx rest, h1 = h ∧ h.persistentRootsFree = idx :: rest ∧ h.addRoot v = (.ok idx, { h with
          persistentRootsFree := rest, persistentRoots := h.persistentRoots.set idx (some v) })))) ∧
    (h.addRoot v).2.Acc := by
  unfold Heap.addRoot
  cases hf : h.persistentRootsFree with
  | cons idx rest =>
    exact ⟨⟨h, .inl rfl, .inr (.inr ⟨idx, rest, rfl, rfl, rfl⟩)⟩,
      Heap.Acc.congr a rfl rfl rfl rfl a.lim rfl⟩
  | nil =>
    simp only
    have hc := ensure_cases h Heap.additionalPersistent v.refs
    have hac := ensure_acc h Heap.additionalPersistent v.refs a
    generalize h.ensure Heap.additionalPersistent v.refs = r at *
    obtain ⟨res, h1⟩ := r
    have hg : GcMaybe h v.refs h1 := hc.1
    cases res with
    | error e => exact ⟨⟨h1, hg, .inl ⟨by simp, e, rfl⟩⟩, hac⟩
    | ok u =>
      have hroom := hc.2 u rfl a.max
      simp only at hroom
      have hma := a.max
      have hroom2 : h1.rawEst + growthBytes szOptValue h1.caps.persistentRoots
          (h1.persistentRoots.length + 1) +
          growthBytes szU32 h1.caps.persistentRootsFree (h1.persistentRoots.length + 1) ≤ h.maxBytes := by
        unfold Heap.additionalPersistent satAdd at hroom
        simp only at hroom
        omega
      obtain ⟨c1, hc1, _, _, hc1e⟩ := reserveTo_spec (elem := szOptValue) (a := 0) hma
        (cur := h1.caps.persistentRoots) (required := h1.persistentRoots.length + 1) (by omega)
      obtain ⟨c2, hc2, _, _, hc2e⟩ := reserveTo_spec (elem := szU32) (a := 0) hma
        (cur := h1.caps.persistentRootsFree) (required := h1.persistentRoots.length + 1) (by omega)
      simp only [hc1, hc2]
      refine ⟨⟨h1, hg, .inr (.inl ⟨by simp, c1, c2, ?_⟩)⟩, Heap.Acc.congr hac rfl rfl rfl rfl ?_ rfl⟩
      · congr 2
        simp [List.set_append]
      · have hm := hg.frame.1
        simp only [Heap.rawEst] at hroom2 ⊢
        omega

theorem setRoot_acc (h : Heap) (id : Nat) (v : Value) (a : h.Acc) : (h.setRoot id v).Acc := by
  unfold Heap.setRoot
  split
  · exact Heap.Acc.congr a rfl rfl rfl rfl a.lim rfl
  · exact a

theorem removeRoot_acc (h : Heap) (id : Nat) (a : h.Acc) : (h.removeRoot id).Acc := by
  unfold Heap.removeRoot
  split
  · exact Heap.Acc.congr a rfl rfl rfl rfl a.lim rfl
  · exact a

theorem truncate_acc (h : Heap) (n m : Nat) (a : h.Acc) : (h.truncateRoots n m).Acc :=
  Heap.Acc.congr a rfl rfl rfl rfl a.lim rfl

theorem alloc_acc (h : Heap) (o : HeapObject) (b : Nat) (a : h.Acc) : (h.allocUnchecked o b).2.Acc := by
  rcases alloc_cases h o b a with ⟨e, _, h2⟩ | ⟨idx, s, h2, he, _, _, _, _, _, _, _, _, _, _, _, _, hac⟩
  · rw [h2]; exact ensure_acc h _ _ a
  · rw [he]; exact hac

/-- Writing a cell: nothing happens to the tables except a possible collection, or the cell of `id`
is replaced. -/
theorem writeCell_cases (h : Heap) (id : HeapId) (o : HeapObject) (b : Nat) (a : h.Acc) :
    (∃ e, (h.writeCell id o b).1 = .error e ∧ GcMaybe h [] (h.writeCell id o b).2 ∨
      ∃ cur h1 s, GcMaybe h [] h1 ∧ h.get id = some cur ∧ 2 ≤ cur.tag ∧ cur.tag = o.tag ∧
        cur.proto? = o.proto? ∧ h1.slots[id.index]? = some s ∧ s.value.isSome ∧
        (h.writeCell id o b).1 = .ok () ∧
        (h.writeCell id o b).2.slots =
          h1.slots.modify id.index (fun s => { s with value := some o, bytes := b }) ∧
        (h.writeCell id o b).2.rootStack = h.rootStack ∧
        (h.writeCell id o b).2.envRootStack = h.envRootStack ∧
        (h.writeCell id o b).2.persistentRoots = h.persistentRoots ∧
        (h.writeCell id o b).2.persistentRootsFree = h.persistentRootsFree ∧
        (h.writeCell id o b).2.symbolRegistry = h.symbolRegistry ∧
        (h.writeCell id o b).2.gcRuns = h1.gcRuns) ∧
    (h.writeCell id o b).2.Acc := by
  unfold Heap.writeCell
  cases hget : h.get id with
  | none => exact ⟨⟨_, .inl ⟨rfl, .inl rfl⟩⟩, a⟩
  | some cur =>
    simp only
    split
    · exact ⟨⟨_, .inl ⟨rfl, .inl rfl⟩⟩, a⟩
    · rename_i hck
      simp only [not_or, Classical.not_not, Nat.not_lt] at hck
      obtain ⟨s0, hs0, hgen0, hv0⟩ := cellIn_eq_some.1 (by rw [← Heap.get_eq]; exact hget)
      have hc := ensure_cases h (fun _ => b - ((h.slots[id.index]?).map Slot.bytes).getD 0) []
      have hac := ensure_acc h (fun _ => b - ((h.slots[id.index]?).map Slot.bytes).getD 0) [] a
      generalize h.ensure (fun _ => b - ((h.slots[id.index]?).map Slot.bytes).getD 0) [] = r at *
      obtain ⟨res, h1⟩ := r
      have hg : GcMaybe h [] h1 := hc.1
      cases res with
      | error e => exact ⟨⟨_, .inl ⟨rfl, hg⟩⟩, hac⟩
      | ok u =>
        have hroom := hc.2 u rfl a.max
        simp only at hroom ⊢
        cases hv1 : (h1.slots[id.index]?).bind Slot.value with
        | none => exact ⟨⟨_, .inl ⟨rfl, hg⟩⟩, hac⟩
        | some c1 =>
          obtain ⟨s, hs, hv⟩ := Option.bind_eq_some_iff.1 hv1
          have hac : h1.Acc := hac
          -- the slot is unchanged by the collection
          have hbytes : s.bytes = s0.bytes := by
            rcases hg with rfl | rfl
            · rw [hs0] at hs; rw [Option.some.inj hs]
            · rw [collect_slot h [] a.ok, hs0] at hs
              simp only [Option.map_some, Option.some.injEq] at hs
              subst hs
              unfold sweepSlot at hv ⊢
              split
              · rfl
              · rename_i hx
                rw [if_neg hx] at hv
                split
                · rfl
                · rename_i hy
                  rw [if_neg hy] at hv
                  simp at hv
          simp only [hs0, Option.map_some, Option.getD_some] at hroom
          simp only
          have hmod : ({ h1 with
              slots := h1.slots.modify id.index (fun s => { s with value := some o }) } : Heap).updateSlotBytes id.index b =
              { h1 with
                usedBytes := if b ≥ s.bytes then satAdd h1.usedBytes (b - s.bytes)
                  else h1.usedBytes - (s.bytes - b)
                slots := h1.slots.modify id.index (fun s => { s with value := some o, bytes := b }) } := by
            unfold Heap.updateSlotBytes
            simp only [List.getElem?_modify, hs, if_true, Option.map_eq_map, Option.map_some,
              Option.getD_some, List.modify_modify_eq]
            rfl
          rw [hmod]
          have hfr := hg.frame
          refine ⟨⟨.outOfMemory, .inr ⟨cur, h1, s, hg, by simp, hck.1, hck.2.1, hck.2.2, hs, by simp [hv], by simp,
            rfl, hfr.2.2.1, hfr.2.2.2.1, hfr.2.2.2.2.1, hfr.2.2.2.2.2.1, hfr.2.2.2.2.2.2.1, rfl⟩⟩, ?_⟩
          have ok1 := hac.ok
          have hsum := sum_modify (fun s : Slot => if s.value.isSome then s.bytes else 0)
            (fun s => { s with value := some o, bytes := b }) h1.slots id.index s hs
          simp only [hv, Option.isSome_some, if_true] at hsum
          have hle : s.bytes ≤ h1.usedBytes := by
            rw [ok1.used]
            unfold Heap.liveBytes
            have : ∀ (l : List Slot) (i : Nat), l[i]? = some s →
                s.bytes ≤ (l.map fun s => if s.value.isSome then s.bytes else 0).sum := by
              intro l
              induction l with
              | nil => intro i hi; simp at hi
              | cons x xs ih =>
                intro i hi
                cases i with
                | zero =>
                  simp at hi; subst hi
                  simp [hv]
                | succ i =>
                  have := ih i (by simpa using hi)
                  simp only [List.map_cons, List.sum_cons]
                  omega
            exact this _ _ hs
          have hm := hac.max
          have hlim := hac.lim
          have hma := hfr.1
          have hus := ok1.used
          refine ⟨⟨?_, ok1.marksClear, ok1.freeNodup, ?_, ?_, ?_, ?_⟩, ?_, hm⟩
          · simpa using ok1.marksLen
          · intro i
            rw [ok1.freeIff i]
            simp only [List.getElem?_modify]
            constructor
            · rintro ⟨s', hs', hv'⟩
              refine ⟨s', ?_, hv'⟩
              have hne : id.index ≠ i := by
                intro he; subst he
                rw [hs] at hs'; obtain rfl := Option.some.inj hs'
                rw [hv] at hv'; simp at hv'
              rw [hs']; simp [hne]
            · rintro ⟨s', hs', hv'⟩
              cases hi : h1.slots[i]? with
              | none => simp [hi] at hs'
              | some s1 =>
                simp only [hi, Option.map_eq_map, Option.map_some, Option.some.injEq] at hs'
                by_cases he : id.index = i
                · simp only [he, if_true] at hs'
                  rw [← hs'] at hv'; simp at hv'
                · rw [if_neg he] at hs'
                  exact ⟨s1, rfl, by rw [hs']; exact hv'⟩
          · exact forall_mem_modify ok1.freeBytes (by intro a _ h; simp at h)
          · simp only [Heap.liveBytes] at hus ⊢
            simp only [Heap.rawEst] at hroom
            split
            · unfold satAdd; omega
            · omega
          · exact forall_mem_modify ok1.gens (fun a ha => ok1.gens a (List.mem_of_getElem? ha))
          · simp only [Heap.rawEst] at hroom hlim ⊢
            split
            · unfold satAdd; omega
            · omega

theorem setPrototype_cases (h : Heap) (obj : HeapId) (p : Option HeapId) :
    (∃ e, h.setPrototype obj p = (.error e, h)) ∨
    (∃ b, h.objectBase obj = some b ∧ p ≠ some obj ∧ h.protoWalk obj 0 [] p = .ok () ∧
      h.setPrototype obj p = (.ok (), { h with
        slots := h.slots.modify obj.index
          (fun s => { s with value := s.value.map (·.withBase { b with prototype := p }) }) })) := by
  unfold Heap.setPrototype
  cases hb : h.objectBase obj with
  | none => exact .inl ⟨_, rfl⟩
  | some b =>
    simp only
    split
    · exact .inl ⟨_, rfl⟩
    · rename_i hne
      cases hw : h.protoWalk obj 0 [] p with
      | error e => exact .inl ⟨_, rfl⟩
      | ok u => exact .inr ⟨b, rfl, hne, rfl, rfl⟩

theorem setPrototype_acc (h : Heap) (obj : HeapId) (p : Option HeapId) (a : h.Acc) :
    (h.setPrototype obj p).2.Acc := by
  rcases setPrototype_cases h obj p with ⟨e, he⟩ | ⟨b, hb, _, _, he⟩
  · rw [he]; exact a
  · rw [he]
    have ok := a.ok
    have hsome : ∀ (s : Slot), ((s.value.map (·.withBase { b with prototype := p })) = none) ↔
        s.value = none := by intro s; simp
    refine ⟨⟨?_, ok.marksClear, ok.freeNodup, ?_, ?_, ?_, ?_⟩, a.lim, a.max⟩
    · simpa using ok.marksLen
    · intro i
      rw [ok.freeIff i]
      simp only [List.getElem?_modify]
      cases hi : h.slots[i]? with
      | none => simp
      | some s1 =>
        simp only [Option.map_eq_map, Option.map_some, Option.some.injEq, exists_eq_left']
        split <;> simp
    · refine forall_mem_modify ok.freeBytes ?_
      intro s hs hv
      exact ok.freeBytes s (List.mem_of_getElem? hs) ((hsome s).1 hv)
    · rw [ok.used]
      unfold Heap.liveBytes
      simp only
      cases hi : h.slots[obj.index]? with
      | none =>
        exfalso
        unfold Heap.objectBase at hb
        rw [Heap.get_eq, cellIn, hi] at hb
        simp at hb
      | some s =>
        have hsum := sum_modify (fun s : Slot => if s.value.isSome then s.bytes else 0)
          (fun s => { s with value := s.value.map (·.withBase { b with prototype := p }) })
          h.slots obj.index s hi
        simp only [Option.isSome_map] at hsum
        omega
    · exact forall_mem_modify ok.gens (fun a ha => ok.gens a (List.mem_of_getElem? ha))

theorem new_acc (mb thr : Nat) (hm : mb < usizeMax) : (Heap.new mb thr).Acc := by
  refine ⟨⟨rfl, by simp [Heap.new], by simp [Heap.new], by simp [Heap.new], by simp [Heap.new], rfl,
    by simp [Heap.new]⟩, ?_, hm⟩
  simp [Heap.new, Heap.rawEst]

end Verif.Heap
