import Verif.Heap.Safety

/-! # Root stacks and persistent roots (helper lemmas). -/

namespace Verif.Heap

/-- A step that only extends the root stacks and leaves persistent roots alone. -/
def RootFrame (h h' : Heap) : Prop := h.Acc → h'.Acc ∧ h'.Prefix h.rootStack h.envRootStack ∧
  h'.persistentRoots = h.persistentRoots ∧ h'.persistentRootsFree = h.persistentRootsFree

theorem RootFrame.refl (h : Heap) : RootFrame h h :=
  fun a => ⟨a, ⟨List.prefix_rfl, List.prefix_rfl⟩, rfl, rfl⟩

theorem RootFrame.trans {a b c : Heap} (x : RootFrame a b) (y : RootFrame b c) : RootFrame a c := by
  intro ha
  obtain ⟨hb, p1, q1, r1⟩ := x ha
  obtain ⟨hc, p2, q2, r2⟩ := y hb
  exact ⟨hc, ⟨p1.1.trans p2.1, p1.2.trans p2.2⟩, q2.trans q1, r2.trans r1⟩

theorem RootFrame.andThen {α β : Type} {h : Heap} {r : Except VmError α × Heap}
    {k : α → Heap → Except VmError β × Heap} (h1 : RootFrame h r.2)
    (h2 : ∀ a x, RootFrame x (k a x).2) : RootFrame h (andThen r k).2 := by
  unfold Heap.andThen
  split
  · exact h1
  · exact h1.trans (h2 _ _)

theorem RootFrame.inScope {α : Type} {h : Heap} {body : Heap → Except VmError α × Heap}
    (hb : RootFrame h (body h).2) : RootFrame h (h.inScope body).2 := by
  intro a
  obtain ⟨ha, hp, q, r⟩ := hb a
  refine ⟨(Tr.truncate (body h).2 _ _ ha).1, ⟨?_, ?_⟩, q, r⟩
  · show h.rootStack <+: (body h).2.rootStack.take h.rootStack.length
    rw [prefix_take hp.1]; exact List.prefix_rfl
  · show h.envRootStack <+: (body h).2.envRootStack.take h.envRootStack.length
    rw [prefix_take hp.2]; exact List.prefix_rfl

theorem RootFrame.gc {h h1 : Heap} {E : List HeapId} (g : GcMaybe h E h1) : RootFrame h h1 := by
  intro a
  have hf := g.frame
  exact ⟨g.acc a, ⟨by simp [hf], by simp [hf]⟩, hf.2.2.2.2.1, hf.2.2.2.2.2.1⟩

theorem RootFrame.ensure (h : Heap) (add : Heap → Nat) (E : List HeapId) :
    RootFrame h (h.ensure add E).2 := .gc (ensure_gc h add E)

theorem RootFrame.push (h : Heap) (vs : List Value) : RootFrame h (h.pushRoots vs []).2 := by
  intro a
  refine ⟨(pushRoots_cases h vs [] a).2, ?_⟩
  obtain ⟨h1, hg, ⟨e, he⟩ | ⟨c, he⟩⟩ := (pushRoots_cases h vs [] a).1 <;> rw [he] <;>
    have hf := hg.frame
  · exact ⟨⟨by simp [hf], by simp [hf]⟩, hf.2.2.2.2.1, hf.2.2.2.2.2.1⟩
  · exact ⟨⟨by simp [hf], by simp [hf]⟩, hf.2.2.2.2.1, hf.2.2.2.2.2.1⟩

theorem RootFrame.pushEnv (h : Heap) (e : HeapId) : RootFrame h (h.pushEnvRoot e).2 := by
  intro a
  refine ⟨(pushEnvRoot_cases h e a).2, ?_⟩
  obtain ⟨h1, hg, ⟨e, he⟩ | ⟨c, he⟩⟩ := (pushEnvRoot_cases h e a).1 <;> rw [he] <;>
    have hf := hg.frame
  · exact ⟨⟨by simp [hf], by simp [hf]⟩, hf.2.2.2.2.1, hf.2.2.2.2.2.1⟩
  · exact ⟨⟨by simp [hf], by simp [hf]⟩, hf.2.2.2.2.1, hf.2.2.2.2.2.1⟩

theorem RootFrame.alloc (h : Heap) (o : HeapObject) (b : Nat) :
    RootFrame h (h.allocUnchecked o b).2 := by
  intro a
  refine ⟨alloc_acc h o b a, ?_⟩
  obtain ⟨hE, hg, ⟨e, he⟩ | ⟨id, h', he, _, _, r1, r2, r3, r4, _⟩⟩ := alloc_get h o b a
  · have hf := hg.frame
    rw [he]; exact ⟨⟨by simp [hf], by simp [hf]⟩, hf.2.2.2.2.1, hf.2.2.2.2.2.1⟩
  · rw [he]; exact ⟨⟨by simp [r1], by simp [r2]⟩, r3, r4⟩

theorem RootFrame.allocSymbol (h : Heap) (d : Option HeapId) : RootFrame h (h.allocSymbol d).2 :=
  fun a => RootFrame.alloc _ _ _ (Heap.Acc.congr a rfl rfl rfl rfl a.lim rfl)

theorem RootFrame.newSymbol (h : Heap) (d : Option HeapId) : RootFrame h (h.newSymbol d).2 :=
  .inScope (.andThen (.push h _) fun _ h2 => .andThen (.ensure h2 _ _) fun _ h3 => .allocSymbol h3 d)

theorem RootFrame.allocObject (h : Heap) (p : Option HeapId) (ps : List PropertyEntry) :
    RootFrame h (h.allocObject p ps).2 :=
  .inScope (.andThen (.push h _) fun _ h2 => .andThen (.ensure h2 _ _) fun _ h3 => .alloc h3 _ _)

theorem RootFrame.registryInsert (h : Heap) (k s : HeapId) : RootFrame h (h.registryInsert k s).2 := by
  refine .andThen ?_ fun _ x => ?_
  · intro a
    refine ⟨(reserveRegistryInsert_cases h a).2, ?_⟩
    obtain ⟨h1, hg, ⟨e, he⟩ | ⟨c, he⟩⟩ := (reserveRegistryInsert_cases h a).1 <;> rw [he] <;>
      have hf := hg.frame <;>
      exact ⟨⟨by simp [hf], by simp [hf]⟩, hf.2.2.2.2.1, hf.2.2.2.2.2.1⟩
  · intro a
    refine ⟨(Tr.registryInsertSorted x k s a).1, ?_⟩
    unfold Heap.registryInsertSorted
    split
    · exact ⟨⟨List.prefix_rfl, List.prefix_rfl⟩, rfl, rfl⟩
    · split <;> exact ⟨⟨List.prefix_rfl, List.prefix_rfl⟩, rfl, rfl⟩

theorem RootFrame.symbolForCreate (h : Heap) (k : HeapId) : RootFrame h (h.symbolForCreate k).2 :=
  .inScope (.andThen (.push h _) fun _ h2 => .andThen (.newSymbol h2 _) fun s h3 =>
    .andThen (.push h3 _) fun _ h4 => .andThen (.registryInsert h4 _ _) fun _ h5 => .refl h5)

theorem RootFrame.symbolFor (h : Heap) (k : HeapId) : RootFrame h (h.symbolFor k).2 := by
  unfold Heap.symbolFor
  split
  · exact .refl h
  · split
    · exact .refl h
    · exact .refl h
    · exact .andThen (.ensure h _ _) fun _ h2 => .symbolForCreate h2 k

theorem RootFrame.writeCell (h : Heap) (id : HeapId) (o : HeapObject) (b : Nat) :
    RootFrame h (h.writeCell id o b).2 := by
  intro a
  refine ⟨(writeCell_cases h id o b a).2, ?_⟩
  obtain ⟨e, ⟨_, hg⟩ | ⟨cur, h1, s, _, _, _, _, _, _, _, _, _, r1, r2, r3, r4, _⟩⟩ :=
    (writeCell_cases h id o b a).1
  · have hf := hg.frame
    exact ⟨⟨by simp [hf], by simp [hf]⟩, hf.2.2.2.2.1, hf.2.2.2.2.2.1⟩
  · exact ⟨⟨by simp [r1], by simp [r2]⟩, r3, r4⟩

theorem RootFrame.setPrototype (h : Heap) (o : HeapId) (p : Option HeapId) :
    RootFrame h (h.setPrototype o p).2 := by
  intro a
  refine ⟨setPrototype_acc h o p a, ?_⟩
  rcases setPrototype_cases h o p with ⟨e, he⟩ | ⟨b, _, _, _, he⟩ <;> rw [he] <;>
    exact ⟨⟨List.prefix_rfl, List.prefix_rfl⟩, rfl, rfl⟩

/-- Every call other than dropping roots only extends the root stacks. -/
theorem step_prefix (h : Heap) (op : Op) (hop : ∀ n m, op ≠ .truncateRoots n m) (a : h.Acc) :
    (h.step op).Prefix h.rootStack h.envRootStack := by
  cases op with
  | collect E => exact (RootFrame.gc (.inr rfl) a).2.1
  | allocString u =>
    exact (RootFrame.andThen (.ensure h _ _) (fun _ x => RootFrame.alloc x _ _) a).2.1
  | newSymbol d => exact (RootFrame.newSymbol h d a).2.1
  | allocObject p ps => exact (RootFrame.allocObject h p ps a).2.1
  | allocCell o b => exact (RootFrame.alloc h o b a).2.1
  | writeCell id o b => exact (RootFrame.writeCell h id o b a).2.1
  | setPrototype o p => exact (RootFrame.setPrototype h o p a).2.1
  | pushRoots vs => exact (RootFrame.push h vs a).2.1
  | pushEnvRoot e => exact (RootFrame.pushEnv h e a).2.1
  | truncateRoots n m => exact absurd rfl (hop n m)
  | addRoot w =>
    show (h.addRoot w).2.Prefix _ _
    obtain ⟨h1, hg, ⟨_, e, he⟩ | ⟨_, c1, c2, he⟩ | ⟨idx, rest, _, _, he⟩⟩ := (addRoot_cases h w a).1 <;>
      rw [he] <;> have hf := hg.frame
    · exact ⟨by simp [hf], by simp [hf]⟩
    · exact ⟨by simp [hf], by simp [hf]⟩
    · exact ⟨List.prefix_rfl, List.prefix_rfl⟩
  | setRoot id w =>
    show (h.setRoot id w).Prefix _ _
    unfold Heap.setRoot; split <;> exact ⟨List.prefix_rfl, List.prefix_rfl⟩
  | removeRoot id =>
    show (h.removeRoot id).Prefix _ _
    unfold Heap.removeRoot; split <;> exact ⟨List.prefix_rfl, List.prefix_rfl⟩
  | symbolFor k => exact (RootFrame.symbolFor h k a).2.1

/-! ## Persistent roots -/

/-- The free list of root ids is exactly the set of vacant positions, without repetition. -/
structure RootsOk (h : Heap) : Prop where
  nodup : h.persistentRootsFree.Nodup
  vacant : ∀ idx, idx ∈ h.persistentRootsFree ↔ h.persistentRoots[idx]? = some none

theorem RootsOk.congr {h h' : Heap} (r : RootsOk h) (h1 : h'.persistentRoots = h.persistentRoots)
    (h2 : h'.persistentRootsFree = h.persistentRootsFree) : RootsOk h' :=
  ⟨by rw [h2]; exact r.nodup, by rw [h1, h2]; exact r.vacant⟩

theorem getRoot_congr {h h' : Heap} (h1 : h'.persistentRoots = h.persistentRoots) (id : Nat) :
    h'.getRoot id = h.getRoot id := by unfold Heap.getRoot; rw [h1]

/-- Calls that do not name persistent roots. -/
theorem step_persistent (h : Heap) (op : Op) (a : h.Acc) (h1 : ∀ v, op ≠ .addRoot v)
    (h2 : ∀ i v, op ≠ .setRoot i v) (h3 : ∀ i, op ≠ .removeRoot i) :
    (h.step op).persistentRoots = h.persistentRoots ∧
    (h.step op).persistentRootsFree = h.persistentRootsFree := by
  cases op with
  | collect E => exact (RootFrame.gc (.inr rfl) a).2.2
  | allocString u =>
    exact (RootFrame.andThen (.ensure h _ _) (fun _ x => RootFrame.alloc x _ _) a).2.2
  | newSymbol d => exact (RootFrame.newSymbol h d a).2.2
  | allocObject p ps => exact (RootFrame.allocObject h p ps a).2.2
  | allocCell o b => exact (RootFrame.alloc h o b a).2.2
  | writeCell id o b => exact (RootFrame.writeCell h id o b a).2.2
  | setPrototype o p => exact (RootFrame.setPrototype h o p a).2.2
  | pushRoots vs => exact (RootFrame.push h vs a).2.2
  | pushEnvRoot e => exact (RootFrame.pushEnv h e a).2.2
  | truncateRoots n m => exact ⟨rfl, rfl⟩
  | addRoot w => exact absurd rfl (h1 w)
  | setRoot i w => exact absurd rfl (h2 i w)
  | removeRoot i => exact absurd rfl (h3 i)
  | symbolFor k => exact (RootFrame.symbolFor h k a).2.2

theorem addRoot_spec (h : Heap) (a : h.Acc) (r : RootsOk h) (v : Value) :
    RootsOk (h.addRoot v).2 ∧
    (∀ e, (h.addRoot v).1 = .error e → ∀ id, (h.addRoot v).2.getRoot id = h.getRoot id) ∧
    (∀ id, (h.addRoot v).1 = .ok id → h.getRoot id = none ∧
      ∀ j, (h.addRoot v).2.getRoot j = if j = id then some v else h.getRoot j) := by
  obtain ⟨h1, hg, ⟨_, e, he⟩ | ⟨hf0, c1, c2, he⟩ | ⟨idx, rest, _, hfree, he⟩⟩ := (addRoot_cases h v a).1 <;>
    rw [he]
  · have hf := hg.frame
    refine ⟨r.congr hf.2.2.2.2.1 hf.2.2.2.2.2.1, fun e _ id => getRoot_congr hf.2.2.2.2.1 id, by simp⟩
  · have hf := hg.frame
    refine ⟨⟨?_, ?_⟩, by simp, ?_⟩
    · simp only; rw [hf.2.2.2.2.2.1]; exact r.nodup
    · intro idx
      simp only
      rw [hf.2.2.2.2.2.1, r.vacant, hf.2.2.2.2.1, List.getElem?_append]
      split
      · rfl
      · rename_i hlt
        rw [List.getElem?_eq_none (by omega)]
        simp
        rw [List.getElem?_singleton]
        split <;> simp
    · intro id hid
      obtain rfl := Except.ok.inj hid
      rw [hf.2.2.2.2.1]
      refine ⟨by simp [Heap.getRoot], fun j => ?_⟩
      simp only [Heap.getRoot]
      rw [List.getElem?_append]
      split
      · rename_i hlt
        rw [if_neg (by omega)]
      · rename_i hlt
        rw [List.getElem?_singleton, List.getElem?_eq_none (l := h.persistentRoots) (by omega)]
        by_cases hj : j = h.persistentRoots.length
        · subst hj; simp
        · rw [if_neg (by omega), if_neg hj]
  · have hnd := r.nodup
    rw [hfree, List.nodup_cons] at hnd
    have hvac := (r.vacant idx).1 (by rw [hfree]; simp)
    have hlt : idx < h.persistentRoots.length := (List.getElem?_eq_some_iff.1 hvac).1
    refine ⟨⟨hnd.2, ?_⟩, by simp, ?_⟩
    · intro j
      simp only
      rw [List.getElem?_set]
      by_cases hj : idx = j
      · subst hj
        simp [hlt, hnd.1]
      · rw [if_neg hj, ← r.vacant, hfree]
        simp [Ne.symm hj]
    · intro id hid
      obtain rfl := Except.ok.inj hid
      refine ⟨by simp [Heap.getRoot, hvac], fun j => ?_⟩
      simp only [Heap.getRoot]
      rw [List.getElem?_set]
      by_cases hj : idx = j
      · subst hj; simp [hlt]
      · rw [if_neg hj, if_neg (Ne.symm hj)]

theorem setRoot_spec (h : Heap) (r : RootsOk h) (id : Nat) (v : Value) :
    RootsOk (h.setRoot id v) ∧
    ∀ j, (h.setRoot id v).getRoot j = if j = id ∧ (h.getRoot id).isSome then some v else h.getRoot j := by
  unfold Heap.setRoot
  split
  · rename_i w hw
    have hlt : id < h.persistentRoots.length := (List.getElem?_eq_some_iff.1 hw).1
    refine ⟨⟨r.nodup, ?_⟩, ?_⟩
    · intro j
      simp only
      rw [r.vacant, List.getElem?_set]
      by_cases hj : id = j
      · subst hj; rw [hw]; simp [hlt]
      · rw [if_neg hj]
    · intro j
      simp only [Heap.getRoot, hw]
      rw [List.getElem?_set]
      by_cases hj : id = j
      · subst hj; simp [hlt]
      · rw [if_neg hj, if_neg (by intro hx; exact hj hx.1.symm)]
  · rename_i hno
    refine ⟨r, fun j => ?_⟩
    have : h.getRoot id = none := by
      unfold Heap.getRoot
      cases hx : h.persistentRoots[id]? with
      | none => rfl
      | some o =>
        cases o with
        | none => rfl
        | some w => exact absurd hx (hno w)
    simp [this]

theorem removeRoot_spec (h : Heap) (r : RootsOk h) (id : Nat) :
    RootsOk (h.removeRoot id) ∧
    ∀ j, (h.removeRoot id).getRoot j = if j = id then none else h.getRoot j := by
  unfold Heap.removeRoot
  split
  · rename_i w hw
    have hlt : id < h.persistentRoots.length := (List.getElem?_eq_some_iff.1 hw).1
    refine ⟨⟨?_, ?_⟩, ?_⟩
    · simp only
      rw [List.nodup_cons]
      refine ⟨?_, r.nodup⟩
      rw [r.vacant, hw]; simp
    · intro j
      simp only
      rw [List.mem_cons, r.vacant, List.getElem?_set]
      by_cases hj : id = j
      · subst hj; simp [hlt]
      · rw [if_neg hj]; simp [Ne.symm hj]
    · intro j
      simp only [Heap.getRoot]
      rw [List.getElem?_set]
      by_cases hj : id = j
      · subst hj; simp [hlt]
      · rw [if_neg hj, if_neg (Ne.symm hj)]
  · rename_i hno
    refine ⟨r, fun j => ?_⟩
    have : h.getRoot id = none := by
      unfold Heap.getRoot
      cases hx : h.persistentRoots[id]? with
      | none => rfl
      | some o =>
        cases o with
        | none => rfl
        | some w => exact absurd hx (hno w)
    split
    · rename_i hj; subst hj; exact this
    · rfl

theorem step_rootsOk (h : Heap) (op : Op) (a : h.Acc) (r : RootsOk h) : RootsOk (h.step op) := by
  by_cases h1 : ∃ v, op = .addRoot v
  · obtain ⟨v, rfl⟩ := h1; exact (addRoot_spec h a r v).1
  · by_cases h2 : ∃ i v, op = .setRoot i v
    · obtain ⟨i, v, rfl⟩ := h2; exact (setRoot_spec h r i v).1
    · by_cases h3 : ∃ i, op = .removeRoot i
      · obtain ⟨i, rfl⟩ := h3; exact (removeRoot_spec h r i).1
      · have := step_persistent h op a (fun v hv => h1 ⟨v, hv⟩) (fun i v hv => h2 ⟨i, v, hv⟩)
          (fun i hv => h3 ⟨i, hv⟩)
        exact r.congr this.1 this.2

theorem run_rootsOk (ops : List Op) : ∀ h : Heap, h.Acc → RootsOk h →
    RootsOk (h.run ops) := by
  induction ops with
  | nil => intro h _ r; exact r
  | cons op ops ih =>
    intro h a r
    exact ih (h.step op) (Tr.step h op a).1 (step_rootsOk h op a r)

theorem new_rootsOk (mb thr : Nat) : RootsOk (Heap.new mb thr) := by
  refine ⟨by simp [Heap.new], by simp [Heap.new]⟩

/-! ## The limit is never changed -/

theorem ensure_max (h : Heap) (add : Heap → Nat) (E : List HeapId) :
    (h.ensure add E).2.maxBytes = h.maxBytes := (ensure_gc h add E).frame.1

theorem andThen_max {α β : Type} {h : Heap} {r : Except VmError α × Heap}
    {k : α → Heap → Except VmError β × Heap} (h1 : r.2.maxBytes = h.maxBytes)
    (h2 : ∀ a x, (k a x).2.maxBytes = x.maxBytes) : (andThen r k).2.maxBytes = h.maxBytes := by
  unfold Heap.andThen
  split
  · exact h1
  · exact (h2 _ _).trans h1

theorem reserveNewSlot_max {h h' : Heap} (hr : h.reserveNewSlot = some h') : h'.maxBytes = h.maxBytes := by
  unfold Heap.reserveNewSlot at hr
  simp only [Option.bind_eq_bind, Option.bind_eq_some_iff] at hr
  obtain ⟨_, _, _, _, _, _, _, _, hr⟩ := hr
  rw [← Option.some.inj hr]

theorem alloc_max (h : Heap) (o : HeapObject) (b : Nat) :
    (h.allocUnchecked o b).2.maxBytes = h.maxBytes := by
  have he := ensure_max h (Heap.additionalAlloc b) []
  unfold Heap.allocUnchecked
  generalize h.ensure (Heap.additionalAlloc b) [] = r at he
  obtain ⟨res, h1⟩ := r
  cases res with
  | error e => exact he
  | ok u =>
    simp only
    split
    · exact he
    · split
      · exact he
      · rename_i h2 hr
        exact (reserveNewSlot_max hr).trans he

theorem push_max (h : Heap) (vs : List Value) (a : h.Acc) :
    (h.pushRoots vs []).2.maxBytes = h.maxBytes := by
  obtain ⟨h1, hg, ⟨e, he⟩ | ⟨c, he⟩⟩ := (pushRoots_cases h vs [] a).1 <;> rw [he] <;> exact hg.frame.1

/-- Keeps the accounting invariant and the limit. -/
def MaxSame (h h' : Heap) : Prop := h.Acc → h'.Acc ∧ h'.maxBytes = h.maxBytes

theorem MaxSame.andThen {α β : Type} {h : Heap} {r : Except VmError α × Heap}
    {k : α → Heap → Except VmError β × Heap} (h1 : MaxSame h r.2) (h2 : ∀ a x, MaxSame x (k a x).2) :
    MaxSame h (andThen r k).2 := by
  intro a
  unfold Heap.andThen
  split
  · exact h1 a
  · rename_i x hx
    have := h2 x r.2 (h1 a).1
    exact ⟨this.1, this.2.trans (h1 a).2⟩

theorem MaxSame.inScope {α : Type} {h : Heap} {body : Heap → Except VmError α × Heap}
    (hb : MaxSame h (body h).2) : MaxSame h (h.inScope body).2 := fun a =>
  ⟨(Tr.truncate (body h).2 _ _ (hb a).1).1, (hb a).2⟩

theorem MaxSame.ensure (h : Heap) (add : Heap → Nat) (E : List HeapId) :
    MaxSame h (h.ensure add E).2 := fun a => ⟨ensure_acc _ _ _ a, ensure_max _ _ _⟩

theorem MaxSame.push (h : Heap) (vs : List Value) : MaxSame h (h.pushRoots vs []).2 := fun a =>
  ⟨(pushRoots_cases h vs [] a).2, push_max h vs a⟩

theorem MaxSame.alloc (h : Heap) (o : HeapObject) (b : Nat) : MaxSame h (h.allocUnchecked o b).2 :=
  fun a => ⟨alloc_acc h o b a, alloc_max h o b⟩

theorem MaxSame.allocSymbol (h : Heap) (d : Option HeapId) : MaxSame h (h.allocSymbol d).2 :=
  fun a => MaxSame.alloc _ _ _ (Heap.Acc.congr a rfl rfl rfl rfl a.lim rfl)

theorem MaxSame.newSymbol (h : Heap) (d : Option HeapId) : MaxSame h (h.newSymbol d).2 :=
  .inScope (.andThen (.push h _) fun _ h2 => .andThen (.ensure h2 _ _) fun _ h3 => .allocSymbol h3 d)

theorem MaxSame.allocObject (h : Heap) (p : Option HeapId) (ps : List PropertyEntry) :
    MaxSame h (h.allocObject p ps).2 :=
  .inScope (.andThen (.push h _) fun _ h2 => .andThen (.ensure h2 _ _) fun _ h3 => .alloc h3 _ _)

theorem MaxSame.registryInsert (h : Heap) (k s : HeapId) : MaxSame h (h.registryInsert k s).2 := by
  refine .andThen ?_ fun _ x => ?_
  · intro a
    refine ⟨(reserveRegistryInsert_cases h a).2, ?_⟩
    obtain ⟨h1, hg, ⟨e, he⟩ | ⟨c, he⟩⟩ := (reserveRegistryInsert_cases h a).1 <;> rw [he] <;>
      exact hg.frame.1
  · intro a
    refine ⟨(Tr.registryInsertSorted x k s a).1, ?_⟩
    unfold Heap.registryInsertSorted
    split
    · rfl
    · split <;> rfl

theorem MaxSame.symbolForCreate (h : Heap) (k : HeapId) : MaxSame h (h.symbolForCreate k).2 :=
  .inScope (.andThen (.push h _) fun _ h2 => .andThen (.newSymbol h2 _) fun s h3 =>
    .andThen (.push h3 _) fun _ h4 => .andThen (.registryInsert h4 _ _) fun _ h5 a => ⟨a, rfl⟩)

theorem MaxSame.symbolFor (h : Heap) (k : HeapId) : MaxSame h (h.symbolFor k).2 := by
  unfold Heap.symbolFor
  split
  · exact fun a => ⟨a, rfl⟩
  · split
    · exact fun a => ⟨a, rfl⟩
    · exact fun a => ⟨a, rfl⟩
    · exact .andThen (.ensure h _ _) fun _ h2 => .symbolForCreate h2 k

theorem writeCell_max (h : Heap) (id : HeapId) (o : HeapObject) (b : Nat) :
    (h.writeCell id o b).2.maxBytes = h.maxBytes := by
  unfold Heap.writeCell
  split
  · rfl
  · split
    · rfl
    · simp only
      split
      · rename_i heq
        have := congrArg (fun r => r.2.maxBytes) heq
        exact this.symm.trans (ensure_max h _ _)
      · rename_i heq
        have h2 := (congrArg (fun r => r.2.maxBytes) heq).symm.trans (ensure_max h _ _)
        split
        · exact h2
        · exact h2

theorem step_max (h : Heap) (op : Op) (a : h.Acc) : (h.step op).maxBytes = h.maxBytes := by
  cases op with
  | collect E => rfl
  | allocString u => exact (MaxSame.andThen (.ensure h _ _) (fun _ x => MaxSame.alloc x _ _) a).2
  | newSymbol d => exact (MaxSame.newSymbol h d a).2
  | allocObject p ps => exact (MaxSame.allocObject h p ps a).2
  | allocCell o b => exact alloc_max h o b
  | writeCell id o b => exact writeCell_max h id o b
  | setPrototype o p =>
    show (h.setPrototype o p).2.maxBytes = _
    rcases setPrototype_cases h o p with ⟨e, he⟩ | ⟨b, _, _, _, he⟩ <;> rw [he]
  | pushRoots vs => exact push_max h vs a
  | pushEnvRoot e =>
    show (h.pushEnvRoot e).2.maxBytes = _
    obtain ⟨h1, hg, ⟨e, he⟩ | ⟨c, he⟩⟩ := (pushEnvRoot_cases h e a).1 <;> rw [he] <;> exact hg.frame.1
  | truncateRoots n m => rfl
  | addRoot w =>
    show (h.addRoot w).2.maxBytes = _
    obtain ⟨h1, hg, ⟨_, e, he⟩ | ⟨_, c1, c2, he⟩ | ⟨idx, rest, _, _, he⟩⟩ := (addRoot_cases h w a).1 <;>
      rw [he]
    · exact hg.frame.1
    · exact hg.frame.1
  | setRoot id w =>
    show (h.setRoot id w).maxBytes = _
    unfold Heap.setRoot; split <;> rfl
  | removeRoot id =>
    show (h.removeRoot id).maxBytes = _
    unfold Heap.removeRoot; split <;> rfl
  | symbolFor k => exact (MaxSame.symbolFor h k a).2

theorem run_max (ops : List Op) : ∀ h : Heap, h.Acc → (h.run ops).maxBytes = h.maxBytes := by
  induction ops with
  | nil => intro h _; rfl
  | cons op ops ih =>
    intro h a
    exact (ih (h.step op) (Tr.step h op a).1).trans (step_max h op a)

end Verif.Heap
