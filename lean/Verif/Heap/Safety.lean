import Verif.Heap.History

/-! # No dangling handles, acyclic prototype chains, and the symbol registry (helper lemmas). -/

namespace Verif.Heap

/-! ## Reachability -/

theorem Heap.Reachable.live {h : Heap} {E : List HeapId} {i : HeapId} (hr : h.Reachable E i) :
    (h.get i).isSome := by cases hr <;> assumption

theorem Heap.IsRoot.mono {h : Heap} {E : List HeapId} {i : HeapId} (hr : h.IsRoot [] i) :
    h.IsRoot E i := by
  cases hr with
  | extra hm => simp at hm
  | stack v hm hv => exact .stack v hm hv
  | envStack hm => exact .envStack hm
  | persistent v hm hv => exact .persistent v hm hv
  | registryKey s hm => exact .registryKey s hm
  | registrySymbol k hm => exact .registrySymbol k hm

theorem Heap.Reachable.transfer {h h' : Heap} {E E' : List HeapId}
    (hroots : ∀ i, h.IsRoot E i → h'.IsRoot E' i)
    (hget : ∀ i, h.Reachable E i → h'.get i = h.get i) {i : HeapId} (hr : h.Reachable E i) :
    h'.Reachable E' i := by
  induction hr with
  | root hr hl => exact .root (hroots _ hr) (by rw [hget _ (.root hr hl)]; exact hl)
  | step hi ho hc hl ih =>
    exact .step ih (by rw [hget _ hi]; exact ho) hc (by rw [hget _ (.step hi ho hc hl)]; exact hl)

theorem Heap.Reachable.mono {h : Heap} {E : List HeapId} {i : HeapId} (hr : h.Reachable [] i) :
    h.Reachable E i := hr.transfer (fun _ h => h.mono) (fun _ _ => rfl)

theorem isRoot_congr {h h' : Heap} (h1 : h'.rootStack = h.rootStack)
    (h2 : h'.envRootStack = h.envRootStack) (h3 : h'.persistentRoots = h.persistentRoots)
    (h4 : h'.symbolRegistry = h.symbolRegistry) {E : List HeapId} {i : HeapId} :
    h'.IsRoot E i ↔ h.IsRoot E i := by
  rw [← mem_rootIds, ← mem_rootIds, Heap.rootIds, Heap.rootIds, h1, h2, h3, h4]

theorem GcMaybe.isRoot {h h1 : Heap} {E E' : List HeapId} {i : HeapId} (g : GcMaybe h E h1) :
    h1.IsRoot E' i ↔ h.IsRoot E' i := by
  have := g.frame
  exact isRoot_congr this.2.2.1 this.2.2.2.1 this.2.2.2.2.1 this.2.2.2.2.2.2.1

theorem GcMaybe.get {h h1 : Heap} {E : List HeapId} (ok : h.Ok) (g : GcMaybe h E h1) {i : HeapId}
    (hr : h.Reachable E i) : h1.get i = h.get i := by
  rcases g with rfl | rfl
  · rfl
  · exact collect_get_reachable h E ok i hr

theorem GcMaybe.get_sub {h h1 : Heap} {E : List HeapId} (ok : h.Ok) (g : GcMaybe h E h1) {i : HeapId}
    {o : HeapObject} (ho : h1.get i = some o) : h.get i = some o := by
  rcases g with rfl | rfl
  · exact ho
  · by_cases hr : h.Reachable E i
    · rw [collect_get_reachable h E ok i hr] at ho; exact ho
    · rw [collect_get_unreachable h E ok i hr] at ho; simp at ho

theorem GcMaybe.reachable {h h1 : Heap} {E : List HeapId} (ok : h.Ok) (g : GcMaybe h E h1) {i : HeapId}
    (hr : h.Reachable [] i) : h1.Reachable [] i :=
  hr.transfer (fun _ h => g.isRoot.2 h) (fun _ h => g.get ok h.mono)

/-! ## Closedness -/

theorem Heap.Closed.preserve {h h' : Heap} (c : h.Closed)
    (hlive : ∀ i, (h.get i).isSome → (h'.get i).isSome)
    (hcells : ∀ i o, h'.get i = some o → h.get i = some o ∨ ∀ j, o.Contains j → (h'.get j).isSome)
    (hroots : ∀ i, h'.IsRoot [] i → h.IsRoot [] i ∨ (h'.get i).isSome) : h'.Closed := by
  refine ⟨?_, ?_⟩
  · intro i o j ho hj
    rcases hcells i o ho with h1 | h1
    · exact hlive j (c.cells i o j h1 hj)
    · exact h1 j hj
  · intro i hi
    rcases hroots i hi with h1 | h1
    · exact hlive i (c.roots i h1)
    · exact h1

theorem Heap.Closed.gc {h h1 : Heap} {E : List HeapId} (c : h.Closed) (ok : h.Ok)
    (g : GcMaybe h E h1) : h1.Closed := by
  rcases g with rfl | rfl
  · exact c
  · refine ⟨?_, ?_⟩
    · intro i o j ho hj
      have hri : h.Reachable E i := by
        by_cases hr : h.Reachable E i
        · exact hr
        · rw [collect_get_unreachable h E ok i hr] at ho; simp at ho
      rw [collect_get_reachable h E ok i hri] at ho
      have hlj := c.cells i o j ho hj
      rw [collect_get_reachable h E ok j (.step hri ho hj hlj)]
      exact hlj
    · intro i hi
      have hi' : h.IsRoot [] i := (GcMaybe.isRoot (.inr rfl)).1 hi
      have hl := c.roots i hi'
      rw [collect_get_reachable h E ok i (.root hi'.mono hl)]
      exact hl

/-! ## Prototype chains -/

/-- `[[Prototype]]` of a live object-like cell. -/
def Heap.protoOf (h : Heap) (i : HeapId) : Option HeapId := (h.get i).bind HeapObject.proto?

theorem protoOf_iff {h : Heap} {i p : HeapId} :
    h.protoOf i = some p ↔ ∃ b, h.objectBase i = some b ∧ b.prototype = some p := by
  unfold Heap.protoOf Heap.objectBase
  cases h.get i with
  | none => simp
  | some o => cases o <;> simp [HeapObject.proto?]

theorem protoEnds_iff {h : Heap} {i : HeapId} :
    h.ProtoEnds i ↔ ∀ p, h.protoOf i = some p → h.ProtoEnds p := by
  constructor
  · rintro ⟨_, hn⟩ p hp
    obtain ⟨b, hb, hbp⟩ := protoOf_iff.1 hp
    exact hn b p hb hbp
  · intro hn
    exact ⟨i, fun b p hb hbp => hn p (protoOf_iff.2 ⟨b, hb, hbp⟩)⟩

theorem Heap.ProtoEnds.sub {h h' : Heap} (hsub : ∀ i p, h'.protoOf i = some p → h.protoOf i = some p)
    {i : HeapId} (he : h.ProtoEnds i) : h'.ProtoEnds i := by
  induction he with
  | intro i hn ih =>
    rw [protoEnds_iff]
    intro p hp
    obtain ⟨b, hb, hbp⟩ := protoOf_iff.1 (hsub i p hp)
    exact ih b p hb hbp

theorem proto_contains {o : HeapObject} {p : HeapId} (h : o.proto? = some p) : o.Contains p := by
  cases o with
  | object b => exact .objectField b (.prototype h)
  | function f => exact .functionBase f (.prototype h)
  | promise q => exact .promiseBase q (.prototype h)
  | _ => simp [HeapObject.proto?] at h

/-! ## The full invariant -/

/-- Everything that holds between legal API calls. -/
structure Heap.Inv (h : Heap) : Prop where
  acc : h.Acc
  closed : h.Closed
  proto : ∀ i, h.ProtoEnds i

theorem Heap.Inv.gc {h h1 : Heap} {E : List HeapId} (v : h.Inv) (g : GcMaybe h E h1) : h1.Inv := by
  refine ⟨g.acc v.acc, v.closed.gc v.acc.ok g, fun i => (v.proto i).sub ?_⟩
  intro i p hp
  unfold Heap.protoOf at hp ⊢
  obtain ⟨o, ho, hop⟩ := Option.bind_eq_some_iff.1 hp
  rw [g.get_sub v.acc.ok ho]
  exact hop

/-- Changing only the roots and bookkeeping: new roots must be live. -/
theorem Heap.Inv.frame {h h' : Heap} (v : h.Inv) (a : h'.Acc) (hs : h'.slots = h.slots)
    (hroots : ∀ i, h'.IsRoot [] i → h.IsRoot [] i ∨ (h.get i).isSome) : h'.Inv := by
  have hget : ∀ i, h'.get i = h.get i := fun i => by rw [Heap.get_eq, Heap.get_eq, hs]
  refine ⟨a, v.closed.preserve (fun i hi => by rw [hget]; exact hi)
    (fun i o ho => .inl (by rw [← hget]; exact ho))
    (fun i hi => by rw [hget]; exact hroots i hi), fun i => (v.proto i).sub ?_⟩
  intro i p hp
  unfold Heap.protoOf at hp ⊢
  rw [← hget]; exact hp

theorem valueIs_refs {v : Value} {i : HeapId} (hv : v.Is i) {vs : List Value} (hm : v ∈ vs) :
    i ∈ vs.flatMap Value.refs := List.mem_flatMap.2 ⟨v, hm, Value.mem_refs.2 hv⟩

/-- Pushing live values: afterwards (on success) they are reachable and unchanged. -/
theorem pushRoots_inv {h : Heap} (v : h.Inv) (vs : List Value)
    (hvs : ∀ v ∈ vs, ∀ i, v.Is i → (h.get i).isSome) :
    (h.pushRoots vs []).2.Inv ∧
    (∀ i, h.Reachable [] i → (h.pushRoots vs []).2.Reachable [] i ∧
      (h.pushRoots vs []).2.get i = h.get i) ∧
    (∀ u, (h.pushRoots vs []).1 = .ok u → ∀ v ∈ vs, ∀ i, v.Is i →
      (h.pushRoots vs []).2.Reachable [] i ∧ (h.pushRoots vs []).2.get i = h.get i) ∧
    (h.pushRoots vs []).2.symbolRegistry = h.symbolRegistry := by
  have hac := (pushRoots_cases h vs [] v.acc).2
  obtain ⟨h1, hg, ⟨e, he⟩ | ⟨c, he⟩⟩ := (pushRoots_cases h vs [] v.acc).1
  · rw [he] at hac ⊢
    exact ⟨v.gc hg, fun i hi => ⟨hg.reachable v.acc.ok hi, hg.get v.acc.ok hi.mono⟩, fun u hu => by simp at hu,
      hg.frame.2.2.2.2.2.2.1⟩
  · rw [he] at hac ⊢
    have hgv : ∀ v ∈ vs, ∀ i, v.Is i → h1.get i = h.get i := fun w hw i hi =>
      hg.get v.acc.ok (.root (.extra (List.mem_append_left _ (valueIs_refs hi hw))) (hvs w hw i hi))
    have hget : ∀ i, ({ h1 with
          caps := { h1.caps with rootStack := c }
          rootStack := h1.rootStack ++ vs } : Heap).get i = h1.get i := fun i => by
      rw [Heap.get_eq, Heap.get_eq]
    refine ⟨(v.gc hg).frame hac rfl ?_, ?_, ?_, hg.frame.2.2.2.2.2.2.1⟩
    · intro i hi
      cases hi with
      | extra hm => simp at hm
      | stack w hm hw =>
        rcases List.mem_append.1 hm with hm | hm
        · exact .inl (.stack w hm hw)
        · right; rw [hgv w hm i hw]; exact hvs w hm i hw
      | envStack hm => exact .inl (.envStack hm)
      | persistent w hm hw => exact .inl (.persistent w hm hw)
      | registryKey s hm => exact .inl (.registryKey s hm)
      | registrySymbol k hm => exact .inl (.registrySymbol k hm)
    · intro i hi
      refine ⟨(hg.reachable v.acc.ok hi).transfer ?_ (fun i _ => hget i), ?_⟩
      · intro i hi
        cases hi with
        | extra hm => simp at hm
        | stack w hm hw => exact .stack w (List.mem_append_left _ hm) hw
        | envStack hm => exact .envStack hm
        | persistent w hm hw => exact .persistent w hm hw
        | registryKey s hm => exact .registryKey s hm
        | registrySymbol k hm => exact .registrySymbol k hm
      · rw [hget]; exact hg.get v.acc.ok hi.mono
    · intro u _ w hw i hi
      refine ⟨.root (.stack w (List.mem_append_right _ hw) hi) ?_, by rw [hget]; exact hgv w hw i hi⟩
      rw [hget, hgv w hw i hi]; exact hvs w hw i hi

/-- `ensure` as an operation on invariants. -/
theorem ensure_inv {h : Heap} (v : h.Inv) (add : Heap → Nat) (E : List HeapId) :
    (h.ensure add E).2.Inv ∧
    (∀ i, h.Reachable [] i → (h.ensure add E).2.Reachable [] i ∧ (h.ensure add E).2.get i = h.get i) ∧
    (∀ i, h.Reachable E i → (h.ensure add E).2.get i = h.get i) ∧
    (h.ensure add E).2.symbolRegistry = h.symbolRegistry := by
  have hg := ensure_gc h add E
  exact ⟨v.gc hg, fun i hi => ⟨hg.reachable v.acc.ok hi, hg.get v.acc.ok hi.mono⟩,
    fun i hi => hg.get v.acc.ok hi, hg.frame.2.2.2.2.2.2.1⟩

/-- Allocation of a cell whose contents are reachable. -/
theorem alloc_inv {h : Heap} (v : h.Inv) (o : HeapObject) (b : Nat)
    (ho : ∀ j, o.Contains j → h.Reachable [] j) :
    (h.allocUnchecked o b).2.Inv ∧
    (∀ i, h.Reachable [] i → (h.allocUnchecked o b).2.Reachable [] i ∧
      (h.allocUnchecked o b).2.get i = h.get i) ∧
    (∀ id, (h.allocUnchecked o b).1 = .ok id → (h.allocUnchecked o b).2.get id = some o ∧
      ∀ i, h.Reachable [] i → i ≠ id) ∧
    (h.allocUnchecked o b).2.symbolRegistry = h.symbolRegistry := by
  have hac := alloc_acc h o b v.acc
  obtain ⟨hE, hg, ⟨e, he⟩ | ⟨id, h', he, hid, hget, r1, r2, r3, r4, r5, _⟩⟩ := alloc_get h o b v.acc
  · rw [he]
    exact ⟨v.gc hg, fun i hi => ⟨hg.reachable v.acc.ok hi, hg.get v.acc.ok hi.mono⟩, fun u hu => by simp at hu,
      hg.frame.2.2.2.2.2.2.1⟩
  · rw [he] at hac ⊢
    have vE := v.gc hg
    have hfr := hg.frame
    have hroot : ∀ {E' i}, h'.IsRoot E' i ↔ hE.IsRoot E' i := fun {E' i} =>
      isRoot_congr (r1.trans hfr.2.2.1.symm) (r2.trans hfr.2.2.2.1.symm)
        (r3.trans hfr.2.2.2.2.1.symm) (r5.trans hfr.2.2.2.2.2.2.1.symm)
    have hne : ∀ i, (hE.get i).isSome → i ≠ id := by
      rintro i hi rfl; rw [hid] at hi; simp at hi
    have hlive : ∀ i, (hE.get i).isSome → (h'.get i).isSome := by
      intro i hi
      rw [hget, if_neg (hne i hi)]; exact hi
    have hcont : ∀ j, o.Contains j → (hE.get j).isSome := by
      intro j hj
      exact (hg.reachable v.acc.ok (ho j hj)).live
    have hreach : ∀ i, hE.Reachable [] i → h'.Reachable [] i ∧ h'.get i = hE.get i := by
      intro i hi
      refine ⟨hi.transfer (fun _ h => hroot.2 h) (fun j hj => ?_), ?_⟩
      · rw [hget, if_neg (hne j hj.live)]
      · rw [hget, if_neg (hne i hi.live)]
    refine ⟨⟨hac, vE.closed.preserve hlive ?_ (fun i hi => .inl (hroot.1 hi)), ?_⟩, ?_, ?_, ?_⟩
    · intro i oi hoi
      rw [hget] at hoi
      split at hoi
      · right
        intro j hj
        obtain rfl := Option.some.inj hoi
        exact hlive j (hcont j hj)
      · exact .inl hoi
    · -- prototype chains
      have hold : ∀ i, hE.ProtoEnds i → (hE.get i).isSome → h'.ProtoEnds i := by
        intro i hi
        induction hi with
        | intro i hn ih =>
          intro hli
          rw [protoEnds_iff]
          intro p hp
          have hp' : hE.protoOf i = some p := by
            unfold Heap.protoOf at hp ⊢
            rw [hget, if_neg (hne i hli)] at hp
            exact hp
          obtain ⟨bb, hb, hbp⟩ := protoOf_iff.1 hp'
          refine ih bb p hb hbp ?_
          obtain ⟨oi, hoi, hpi⟩ := Option.bind_eq_some_iff.1 hp'
          exact vE.closed.cells i oi p hoi (proto_contains hpi)
      intro i
      rw [protoEnds_iff]
      intro p hp
      have hlp : (hE.get p).isSome := by
        obtain ⟨oi, hoi, hpi⟩ := Option.bind_eq_some_iff.1 hp
        rw [hget] at hoi
        split at hoi
        · obtain rfl := Option.some.inj hoi
          exact hcont p (proto_contains hpi)
        · exact vE.closed.cells i oi p hoi (proto_contains hpi)
      exact hold p (vE.proto p) hlp
    · intro i hi
      have h1 := hg.reachable v.acc.ok hi
      exact ⟨(hreach i h1).1, by rw [(hreach i h1).2]; exact hg.get v.acc.ok hi.mono⟩
    · intro id' hid'
      obtain rfl := Except.ok.inj hid'
      refine ⟨by simp only; rw [hget, if_pos rfl], fun i hi => ?_⟩
      exact hne i (hg.reachable v.acc.ok hi).live
    · exact r5

/-! ## Dropping roots -/

theorem truncate_inv {h : Heap} (v : h.Inv) (n m : Nat) : (h.truncateRoots n m).Inv := by
  refine v.frame ((Tr.truncate h n m) v.acc).1 rfl ?_
  intro i hi
  left
  cases hi with
  | extra hm => simp at hm
  | stack w hm hw => exact .stack w (List.mem_of_mem_take hm) hw
  | envStack hm => exact .envStack (List.mem_of_mem_take hm)
  | persistent w hm hw => exact .persistent w hm hw
  | registryKey s hm => exact .registryKey s hm
  | registrySymbol k hm => exact .registrySymbol k hm

theorem andThen_inv {α β : Type} {P : Heap → Prop} {r : Except VmError α × Heap}
    {k : α → Heap → Except VmError β × Heap} (h1 : P r.2)
    (h2 : ∀ a, r.1 = .ok a → P (k a r.2).2) : P (andThen r k).2 := by
  unfold andThen
  split
  · exact h1
  · rename_i a ha
    exact h2 a ha

theorem allocString_inv {h : Heap} (v : h.Inv) (u : List Nat) : (h.allocString u).2.Inv := by
  refine andThen_inv (P := Heap.Inv) (ensure_inv v _ _).1 fun _ _ => ?_
  exact (alloc_inv (ensure_inv v _ _).1 _ _ (fun j hj => by cases hj)).1

theorem allocSymbol_inv {h : Heap} (v : h.Inv) (d : Option HeapId)
    (hd : ∀ i, d = some i → h.Reachable [] i) : (h.allocSymbol d).2.Inv ∧
    (∀ i, h.Reachable [] i → (h.allocSymbol d).2.Reachable [] i ∧ (h.allocSymbol d).2.get i = h.get i) ∧
    (∀ id, (h.allocSymbol d).1 = .ok id → (∃ n, (h.allocSymbol d).2.get id = some (.symbol n d)) ∧
      ∀ i, h.Reachable [] i → i ≠ id) ∧
    (h.allocSymbol d).2.symbolRegistry = h.symbolRegistry := by
  unfold Heap.allocSymbol
  have v' : ({ h with nextSymbolId := (h.nextSymbolId + 1) % 2 ^ 64 } : Heap).Inv :=
    v.frame (Heap.Acc.congr v.acc rfl rfl rfl rfl v.acc.lim rfl) rfl (fun i hi => .inl
      ((isRoot_congr (h := h)
        (h' := { h with nextSymbolId := (h.nextSymbolId + 1) % 2 ^ 64 }) rfl rfl rfl rfl).1 hi))
  have hreach : ∀ i, h.Reachable [] i →
      ({ h with nextSymbolId := (h.nextSymbolId + 1) % 2 ^ 64 } : Heap).Reachable [] i := fun i hi =>
    hi.transfer (fun _ hr => (isRoot_congr (h := h)
        (h' := { h with nextSymbolId := (h.nextSymbolId + 1) % 2 ^ 64 }) rfl rfl rfl rfl).2 hr)
      (fun j _ => by rw [Heap.get_eq, Heap.get_eq])
  have hget : ∀ i, ({ h with nextSymbolId := (h.nextSymbolId + 1) % 2 ^ 64 } : Heap).get i = h.get i :=
    fun i => by rw [Heap.get_eq, Heap.get_eq]
  obtain ⟨a1, a2, a3, a4⟩ := alloc_inv v' (.symbol h.nextSymbolId d) 0 (by
    intro j hj
    cases hj
    exact hreach j (hd j rfl))
  exact ⟨a1, fun i hi => ⟨(a2 i (hreach i hi)).1, by rw [(a2 i (hreach i hi)).2, hget]⟩,
    fun id hid => ⟨⟨_, (a3 id hid).1⟩, fun i hi => (a3 id hid).2 i (hreach i hi)⟩, a4⟩

/-- Roots after truncating to the length of a prefix. -/
theorem truncate_get (h : Heap) (n m : Nat) (i : HeapId) : (h.truncateRoots n m).get i = h.get i := by
  rw [Heap.get_eq, Heap.get_eq]; rfl

/-- The stacks keep `xs`/`ys` as prefix. -/
def Heap.Prefix (h : Heap) (xs : List Value) (ys : List HeapId) : Prop :=
  xs <+: h.rootStack ∧ ys <+: h.envRootStack

theorem prefix_take {α : Type} {xs l : List α} (h : xs <+: l) : l.take xs.length = xs := by
  obtain ⟨t, rfl⟩ := h
  simp

theorem truncate_reachable {h0 h : Heap} (hp : h.Prefix h0.rootStack h0.envRootStack)
    (h3 : h.persistentRoots = h0.persistentRoots) (h4 : h.symbolRegistry = h0.symbolRegistry)
    (hget : ∀ i, h0.Reachable [] i → h.get i = h0.get i) {i : HeapId} (hr : h0.Reachable [] i) :
    (h.truncateRoots h0.rootStack.length h0.envRootStack.length).Reachable [] i := by
  refine hr.transfer ?_ ?_
  · intro j hj
    refine (isRoot_congr (h := h0)
      (h' := h.truncateRoots h0.rootStack.length h0.envRootStack.length) ?_ ?_ h3 h4).2 hj
    · exact prefix_take hp.1
    · exact prefix_take hp.2
  · intro j hj
    rw [truncate_get]; exact hget j hj

theorem ensure_stacks (h : Heap) (add : Heap → Nat) (E : List HeapId) :
    (h.ensure add E).2.rootStack = h.rootStack ∧ (h.ensure add E).2.envRootStack = h.envRootStack ∧
    (h.ensure add E).2.persistentRoots = h.persistentRoots := by
  have := (ensure_gc h add E).frame
  exact ⟨this.2.2.1, this.2.2.2.1, this.2.2.2.2.1⟩

theorem pushRoots_stacks (h : Heap) (vs : List Value) (a : h.Acc) :
    h.rootStack <+: (h.pushRoots vs []).2.rootStack ∧
    (h.pushRoots vs []).2.envRootStack = h.envRootStack ∧
    (h.pushRoots vs []).2.persistentRoots = h.persistentRoots := by
  obtain ⟨h1, hg, ⟨e, he⟩ | ⟨c, he⟩⟩ := (pushRoots_cases h vs [] a).1
  · have := hg.frame
    rw [he]
    exact ⟨by simp [this], this.2.2.2.1, this.2.2.2.2.1⟩
  · have := hg.frame
    rw [he]
    exact ⟨by simp [this], this.2.2.2.1, this.2.2.2.2.1⟩

theorem alloc_stacks (h : Heap) (o : HeapObject) (b : Nat) (a : h.Acc) :
    (h.allocUnchecked o b).2.rootStack = h.rootStack ∧
    (h.allocUnchecked o b).2.envRootStack = h.envRootStack ∧
    (h.allocUnchecked o b).2.persistentRoots = h.persistentRoots := by
  obtain ⟨hE, hg, ⟨e, he⟩ | ⟨id, h', he, _, _, r1, r2, r3, _⟩⟩ := alloc_get h o b a
  · have := hg.frame
    rw [he]
    exact ⟨this.2.2.1, this.2.2.2.1, this.2.2.2.2.1⟩
  · rw [he]; exact ⟨r1, r2, r3⟩

theorem allocSymbol_stacks (h : Heap) (d : Option HeapId) (a : h.Acc) :
    (h.allocSymbol d).2.rootStack = h.rootStack ∧
    (h.allocSymbol d).2.envRootStack = h.envRootStack ∧
    (h.allocSymbol d).2.persistentRoots = h.persistentRoots :=
  alloc_stacks _ _ _ (Heap.Acc.congr a rfl rfl rfl rfl a.lim rfl)

theorem descRoots_mem {d : Option HeapId} {v : Value} {i : HeapId} (hv : v ∈ descRoots d)
    (hi : v.Is i) : d = some i := by
  cases d with
  | none => simp [descRoots] at hv
  | some j =>
    simp only [descRoots, List.mem_singleton] at hv
    subst hv
    cases hi
    rfl

theorem mem_descRoots (i : HeapId) : Value.string i ∈ descRoots (some i) := by simp [descRoots]

/-- What every sub-step of a composite operation keeps. -/
structure Keep (h h' : Heap) : Prop where
  inv : h'.Inv
  reach : ∀ i, h.Reachable [] i → h'.Reachable [] i
  get : ∀ i, h.Reachable [] i → h'.get i = h.get i
  reg : h'.symbolRegistry = h.symbolRegistry
  pre : h'.Prefix h.rootStack h.envRootStack
  pers : h'.persistentRoots = h.persistentRoots

theorem Keep.refl {h : Heap} (v : h.Inv) : Keep h h :=
  ⟨v, fun _ h => h, fun _ _ => rfl, rfl, ⟨List.prefix_rfl, List.prefix_rfl⟩, rfl⟩

theorem Keep.trans {a b c : Heap} (x : Keep a b) (y : Keep b c) : Keep a c :=
  ⟨y.inv, fun i hi => y.reach i (x.reach i hi),
    fun i hi => (y.get i (x.reach i hi)).trans (x.get i hi), y.reg.trans x.reg,
    ⟨x.pre.1.trans y.pre.1, x.pre.2.trans y.pre.2⟩, y.pers.trans x.pers⟩

/-- Closing the scope opened at `h`. -/
theorem Keep.close {h h' : Heap} (k : Keep h h') :
    Keep h (h'.truncateRoots h.rootStack.length h.envRootStack.length) := by
  refine ⟨truncate_inv k.inv _ _, fun i hi => truncate_reachable k.pre k.pers k.reg k.get hi, ?_, k.reg,
    ⟨?_, ?_⟩, k.pers⟩
  · intro i hi
    rw [truncate_get]; exact k.get i hi
  · show h.rootStack <+: h'.rootStack.take h.rootStack.length
    rw [prefix_take k.pre.1]; exact List.prefix_rfl
  · show h.envRootStack <+: h'.envRootStack.take h.envRootStack.length
    rw [prefix_take k.pre.2]; exact List.prefix_rfl

theorem Keep.push {h : Heap} (v : h.Inv) (vs : List Value)
    (hvs : ∀ v ∈ vs, ∀ i, v.Is i → (h.get i).isSome) : Keep h (h.pushRoots vs []).2 := by
  obtain ⟨p1, p2, p3, p4⟩ := pushRoots_inv v vs hvs
  have ps := pushRoots_stacks h vs v.acc
  exact ⟨p1, fun i hi => (p2 i hi).1, fun i hi => (p2 i hi).2, p4,
    ⟨ps.1, by rw [ps.2.1]; exact List.prefix_rfl⟩, ps.2.2⟩

theorem Keep.ensure {h : Heap} (v : h.Inv) (add : Heap → Nat) (E : List HeapId) :
    Keep h (h.ensure add E).2 := by
  obtain ⟨p1, p2, p3, p4⟩ := ensure_inv v add E
  have ps := ensure_stacks h add E
  exact ⟨p1, fun i hi => (p2 i hi).1, fun i hi => (p2 i hi).2, p4,
    ⟨by rw [ps.1]; exact List.prefix_rfl, by rw [ps.2.1]; exact List.prefix_rfl⟩, ps.2.2⟩

theorem Keep.allocSymbol {h : Heap} (v : h.Inv) (d : Option HeapId)
    (hd : ∀ i, d = some i → h.Reachable [] i) : Keep h (h.allocSymbol d).2 := by
  obtain ⟨p1, p2, p3, p4⟩ := allocSymbol_inv v d hd
  have ps := allocSymbol_stacks h d v.acc
  exact ⟨p1, fun i hi => (p2 i hi).1, fun i hi => (p2 i hi).2, p4,
    ⟨by rw [ps.1]; exact List.prefix_rfl, by rw [ps.2.1]; exact List.prefix_rfl⟩, ps.2.2⟩

theorem andThen_post {α β : Type} {P : Except VmError β → Heap → Prop} {r : Except VmError α × Heap}
    {k : α → Heap → Except VmError β × Heap} (h1 : ∀ e, r.1 = .error e → P (.error e) r.2)
    (h2 : ∀ a, r.1 = .ok a → P (k a r.2).1 (k a r.2).2) : P (andThen r k).1 (andThen r k).2 := by
  unfold andThen
  split
  · rename_i e he
    exact h1 e he
  · rename_i a ha
    exact h2 a ha

/-- The result of creating a symbol with description `d` starting from `h`. -/
def SymPost (h : Heap) (d : Option HeapId) (r : Except VmError HeapId) (h' : Heap) : Prop :=
  Keep h h' ∧ ∀ id, r = .ok id → (∃ n, h'.get id = some (.symbol n d)) ∧ ∀ i, h.Reachable [] i → i ≠ id

theorem newSymbol_post {h : Heap} (v : h.Inv) (d : Option HeapId)
    (hd : ∀ i, d = some i → (h.get i).isSome) :
    SymPost h d (h.newSymbol d).1 (h.newSymbol d).2 := by
  have hvs : ∀ w ∈ descRoots d, ∀ i, w.Is i → (h.get i).isSome :=
    fun w hw i hi => hd i (descRoots_mem hw hi)
  have hpush := (pushRoots_inv v (descRoots d) hvs).2.2.1
  have k1 := Keep.push v (descRoots d) hvs
  generalize hr1 : h.pushRoots (descRoots d) [] = r1 at hpush k1
  have k2 := Keep.ensure k1.inv (fun _ => 0) []
  generalize hr2 : r1.2.ensure (fun _ => 0) [] = r2 at k2
  have body : SymPost h d
      (andThen r1 fun _ h => andThen (h.ensure (fun _ => 0) []) fun _ h => h.allocSymbol d).1
      (andThen r1 fun _ h => andThen (h.ensure (fun _ => 0) []) fun _ h => h.allocSymbol d).2 := by
    refine andThen_post (P := SymPost h d) (fun e he => ⟨k1, by simp⟩) fun u hu => ?_
    rw [hr2]
    refine andThen_post (P := SymPost h d) (fun e he => ⟨k1.trans k2, by simp⟩) fun u' hu' => ?_
    have hd' : ∀ i, d = some i → r2.2.Reachable [] i := by
      intro i hi
      exact k2.reach i (hpush u hu (.string i) (by rw [hi]; exact mem_descRoots i) i .string).1
    obtain ⟨a1, a2, a3, a4⟩ := allocSymbol_inv k2.inv d hd'
    refine ⟨(k1.trans k2).trans (Keep.allocSymbol k2.inv d hd'), fun id hid => ?_⟩
    exact ⟨(a3 id hid).1, fun i hi => (a3 id hid).2 i ((k1.trans k2).reach i hi)⟩
  have hns : h.newSymbol d =
      ((andThen r1 fun _ h => andThen (h.ensure (fun _ => 0) []) fun _ h => h.allocSymbol d).1,
       (andThen r1 fun _ h => andThen (h.ensure (fun _ => 0) []) fun _ h =>
        h.allocSymbol d).2.truncateRoots h.rootStack.length h.envRootStack.length) := by
    rw [← hr1]; rfl
  rw [hns]
  refine ⟨body.1.close, fun id hid => ?_⟩
  obtain ⟨⟨n, hn⟩, hne⟩ := body.2 id hid
  exact ⟨⟨n, by rw [truncate_get]; exact hn⟩, hne⟩

theorem objectRoots_refs {p : Option HeapId} {ps : List PropertyEntry} {i : HeapId} :
    (∃ v ∈ objectRoots p ps, v.Is i) ↔ (HeapObject.object ⟨p, true, ps, none⟩).Contains i := by
  rw [← HeapObject.mem_refs]
  constructor
  · rintro ⟨v, hv, hi⟩
    unfold objectRoots at hv
    simp only [HeapObject.refs, ObjectBase.refs, List.mem_append, mem_optRefs, List.mem_flatMap,
      PropertyEntry.refs]
    rcases List.mem_append.1 hv with hv | hv
    · left
      cases p with
      | none => simp at hv
      | some q => simp at hv; subst hv; cases hi; rfl
    · right
      obtain ⟨e, he, hv⟩ := List.mem_flatMap.1 hv
      refine ⟨e, he, ?_⟩
      rcases List.mem_cons.1 hv with hv | hv
      · left
        cases hk : e.key with
        | string s => rw [hk] at hv; subst hv; cases hi; simp [PropertyKey.refs]
        | symbol s => rw [hk] at hv; subst hv; cases hi; simp [PropertyKey.refs]
      · right
        cases hk : e.kind with
        | data w wr =>
          rw [hk] at hv; simp at hv; subst hv
          simpa [PropertyKind.refs] using Value.mem_refs.2 hi
        | accessor g s =>
          rw [hk] at hv; simp at hv
          rcases hv with rfl | rfl
          · simp [PropertyKind.refs, Value.mem_refs, hi]
          · simp [PropertyKind.refs, Value.mem_refs, hi]
  · intro h
    simp only [HeapObject.refs, ObjectBase.refs, List.mem_append, mem_optRefs, List.mem_flatMap,
      PropertyEntry.refs] at h
    unfold objectRoots
    rcases h with h | ⟨e, he, h | h⟩
    · subst h
      exact ⟨.object i, by simp, .object⟩
    · cases hk : e.key with
      | string s =>
        rw [hk] at h; simp [PropertyKey.refs] at h; subst h
        refine ⟨.string i, List.mem_append_right _ (List.mem_flatMap.2 ⟨e, he, ?_⟩), .string⟩
        simp [hk]
      | symbol s =>
        rw [hk] at h; simp [PropertyKey.refs] at h; subst h
        refine ⟨.symbol i, List.mem_append_right _ (List.mem_flatMap.2 ⟨e, he, ?_⟩), .symbol⟩
        simp [hk]
    · cases hk : e.kind with
      | data w wr =>
        rw [hk] at h
        refine ⟨w, List.mem_append_right _ (List.mem_flatMap.2 ⟨e, he, ?_⟩), Value.mem_refs.1 h⟩
        simp [hk]
      | accessor g s =>
        rw [hk] at h
        simp only [PropertyKind.refs, List.mem_append, Value.mem_refs] at h
        rcases h with h | h
        · refine ⟨g, List.mem_append_right _ (List.mem_flatMap.2 ⟨e, he, ?_⟩), h⟩
          simp [hk]
        · refine ⟨s, List.mem_append_right _ (List.mem_flatMap.2 ⟨e, he, ?_⟩), h⟩
          simp [hk]

theorem allocObject_inv {h : Heap} (v : h.Inv) (p : Option HeapId) (ps : List PropertyEntry)
    (hl : ∀ i, (HeapObject.object ⟨p, true, ps, none⟩).Contains i → (h.get i).isSome) :
    (h.allocObject p ps).2.Inv := by
  refine truncate_inv ?_ _ _
  obtain ⟨p1, p2, p3, _⟩ := pushRoots_inv v (objectRoots p ps)
    (fun w hw i hi => hl i (objectRoots_refs.1 ⟨w, hw, hi⟩))
  refine andThen_inv (P := Heap.Inv) p1 fun u hu => ?_
  obtain ⟨e1, e2, _, _⟩ := ensure_inv p1 (fun _ => satMul ps.length szPropertyEntry) []
  refine andThen_inv (P := Heap.Inv) e1 fun u' hu' => ?_
  refine (alloc_inv e1 _ _ ?_).1
  intro j hj
  obtain ⟨w, hw, hi⟩ := objectRoots_refs.2 hj
  exact (e2 j (p3 u hu w hw j hi).1).1

/-! ## Writes -/

theorem writeCell_inv {h : Heap} (v : h.Inv) (id : HeapId) (o : HeapObject) (b : Nat)
    (hid : h.Reachable [] id) (ho : ∀ i, o.Contains i → h.Reachable [] i) :
    (h.writeCell id o b).2.Inv := by
  have hac := (writeCell_cases h id o b v.acc).2
  obtain ⟨e, ⟨_, hg⟩ | ⟨cur, h1, s, hg, hcur, ht1, ht2, hp, hs, hv, _, hsl, r1, r2, r3, r4, r5, r6⟩⟩ :=
    (writeCell_cases h id o b v.acc).1
  · exact v.gc hg
  · have v1 := v.gc hg
    have hfr := hg.frame
    generalize (h.writeCell id o b).2 = h' at *
    have hcur1 : h1.get id = some cur := by rw [hg.get v.acc.ok hid.mono]; exact hcur
    have hsgen : s.generation = id.gen := by
      rw [Heap.get_eq] at hcur1
      obtain ⟨s', hs', hg', _⟩ := cellIn_eq_some.1 hcur1
      rw [hs] at hs'; rw [Option.some.inj hs']; exact hg'
    have hget : ∀ i, h'.get i = if i = id then some o else h1.get i := by
      intro i
      rw [Heap.get_eq, hsl, cellIn_modify _ id.index _ s hs rfl, hsgen]
      have hidd : (⟨id.index, id.gen⟩ : HeapId) = id := rfl
      rw [hidd, Heap.get_eq]
      split
      · rfl
      · rename_i hne
        split
        · rename_i hx
          symm
          unfold cellIn
          rw [hx, hs]
          have : ¬ s.generation = i.gen := by
            intro hh
            apply hne
            cases i; cases id
            simp_all
          simp [this]
        · rfl
    have hlive : ∀ i, (h1.get i).isSome → (h'.get i).isSome := by
      intro i hi
      rw [hget]
      split
      · rfl
      · exact hi
    refine ⟨hac, v1.closed.preserve hlive ?_ ?_, fun i => (v1.proto i).sub ?_⟩
    · intro i oi hoi
      rw [hget] at hoi
      split at hoi
      · right
        intro j hj
        obtain rfl := Option.some.inj hoi
        exact hlive j (hg.reachable v.acc.ok (ho j hj)).live
      · exact .inl hoi
    · intro i hi
      left
      exact (isRoot_congr (r1.trans hfr.2.2.1.symm) (r2.trans hfr.2.2.2.1.symm)
        (r3.trans hfr.2.2.2.2.1.symm) (r5.trans hfr.2.2.2.2.2.2.1.symm)).1 hi
    · intro i p hp'
      unfold Heap.protoOf at hp' ⊢
      rw [hget] at hp'
      split at hp'
      · rename_i hx
        subst hx
        rw [hcur1]
        simp only [Option.bind_some] at hp' ⊢
        rw [hp]; exact hp'
      · exact hp'

theorem protoOf_eq {h : Heap} {i : HeapId} {b : ObjectBase} (hb : h.objectBase i = some b) :
    h.protoOf i = b.prototype := by
  cases hbp : b.prototype with
  | none =>
    cases hp : h.protoOf i with
    | none => rfl
    | some p =>
      obtain ⟨b', hb', hbp'⟩ := protoOf_iff.1 hp
      rw [hb] at hb'; obtain rfl := Option.some.inj hb'
      rw [hbp] at hbp'; simp at hbp'
  | some p => exact protoOf_iff.2 ⟨b, hb, hbp⟩

/-- The walk only succeeds if the chain from `cur` never meets `obj` and all its members are live. -/
theorem protoWalk_ok {h : Heap} {obj : HeapId} {steps : Nat} {visited : List HeapId}
    {cur : Option HeapId} (hw : h.protoWalk obj steps visited cur = .ok ()) :
    ∀ p, cur = some p → p ≠ obj ∧ (∃ b, h.objectBase p = some b) ∧
      (∀ q, h.protoOf p = some q → ∃ steps' visited', h.protoWalk obj steps' visited' (some q) = .ok ()) := by
  intro p hp
  subst hp
  unfold Heap.protoWalk at hw
  split at hw
  · simp at hw
  · split at hw
    · simp at hw
    · split at hw
      · simp at hw
      · rename_i hne
        cases hb : h.objectBase p with
        | none => simp [hb] at hw
        | some b =>
          simp only [hb] at hw
          refine ⟨hne, ⟨b, rfl⟩, fun q hq => ⟨steps + 1, p :: visited, ?_⟩⟩
          rw [protoOf_eq hb] at hq
          rw [← hq]; exact hw

theorem withBase_contains {o : HeapObject} {b b' : ObjectBase} {p : Option HeapId} {j : HeapId}
    (hb : (match o with
      | .object b => some b
      | .function f => some f.base
      | .promise p => some p.base
      | _ => none) = some b) (hb' : b' = { b with prototype := p })
    (hj : (o.withBase b').Contains j) : o.Contains j ∨ p = some j := by
  subst hb'
  have hbase : ∀ {b : ObjectBase}, ({ b with prototype := p } : ObjectBase).Contains j →
      b.Contains j ∨ p = some j := by
    intro b hc
    cases hc with
    | prototype h => exact .inr h
    | key e hp h => exact .inl (.key e hp h)
    | value e hp v w hk h => exact .inl (.value e hp v w hk h)
    | getter e hp g s hk h => exact .inl (.getter e hp g s hk h)
    | setter e hp g s hk h => exact .inl (.setter e hp g s hk h)
  cases o with
  | string u => simp at hb
  | symbol n d => simp at hb
  | env e => simp at hb
  | object b0 =>
    simp at hb; subst hb
    cases hj with
    | objectField _ h => exact (hbase h).imp (fun x => .objectField _ x) id
  | function f =>
    simp at hb; subst hb
    cases hj with
    | functionBase _ h => exact (hbase h).imp (fun x => .functionBase _ x) id
    | functionName _ h => exact .inl (.functionName _ h)
    | functionPromise _ h => exact .inl (.functionPromise _ h)
    | functionOnFinally _ a c hd h => exact .inl (.functionOnFinally _ a c hd h)
    | functionConstructor _ a c hd h => exact .inl (.functionConstructor _ a c hd h)
    | functionThunk _ v hd h => exact .inl (.functionThunk _ v hd h)
    | functionBoundTarget _ h => exact .inl (.functionBoundTarget _ h)
    | functionBoundThis _ v hv h => exact .inl (.functionBoundThis _ v hv h)
    | functionNewTarget _ v hv h => exact .inl (.functionNewTarget _ v hv h)
    | functionArg _ vs hvs v hv h => exact .inl (.functionArg _ vs hvs v hv h)
    | functionSlot _ vs hvs v hv h => exact .inl (.functionSlot _ vs hvs v hv h)
    | functionRealm _ h => exact .inl (.functionRealm _ h)
    | functionEnv _ h => exact .inl (.functionEnv _ h)
  | promise q =>
    simp at hb; subst hb
    cases hj with
    | promiseBase _ h => exact (hbase h).imp (fun x => .promiseBase _ x) id
    | promiseResult _ v hv h => exact .inl (.promiseResult _ v hv h)
    | promiseFulfill _ rs hrs r hr h => exact .inl (.promiseFulfill _ rs hrs r hr h)
    | promiseReject _ rs hrs r hr h => exact .inl (.promiseReject _ rs hrs r hr h)

theorem setPrototype_inv {h : Heap} (v : h.Inv) (obj : HeapId) (p : Option HeapId) :
    (h.setPrototype obj p).2.Inv := by
  have hac := setPrototype_acc h obj p v.acc
  rcases setPrototype_cases h obj p with ⟨e, he⟩ | ⟨b, hb, hne, hw, he⟩
  · rw [he]; exact v
  · rw [he] at hac ⊢
    -- the cell
    have ⟨o, hgo, hob⟩ : ∃ o, h.get obj = some o ∧ (match o with
        | .object b => some b
        | .function f => some f.base
        | .promise p => some p.base
        | _ => none) = some b := by
      unfold Heap.objectBase at hb
      cases hg : h.get obj with
      | none => simp [hg] at hb
      | some o => rw [hg] at hb; exact ⟨o, rfl, by cases o <;> exact hb⟩
    obtain ⟨s, hs, hgen, hsv⟩ := cellIn_eq_some.1 (by rw [← Heap.get_eq]; exact hgo)
    have hget : ∀ i, ({ h with
        slots := h.slots.modify obj.index
          (fun s => { s with value := s.value.map (·.withBase { b with prototype := p }) }) } :
        Heap).get i = if i = obj then some (o.withBase { b with prototype := p }) else h.get i := by
      intro i
      rw [Heap.get_eq]
      simp only
      rw [cellIn_modify h.slots obj.index _ s hs rfl, hgen]
      have hidd : (⟨obj.index, obj.gen⟩ : HeapId) = obj := rfl
      rw [hidd, hsv, Heap.get_eq]
      split
      · rfl
      · rename_i hne
        split
        · rename_i hx
          symm
          unfold cellIn
          rw [hx, hs]
          have : ¬ s.generation = i.gen := by
            intro hh
            apply hne
            cases i; cases obj
            simp_all
          simp [this]
        · rfl
    generalize hh' : ({ h with
        slots := h.slots.modify obj.index
          (fun s => { s with value := s.value.map (·.withBase { b with prototype := p }) }) } :
        Heap) = h' at hget hac ⊢
    have hlive : ∀ i, (h.get i).isSome → (h'.get i).isSome := by
      intro i hi
      rw [hget]
      split
      · rfl
      · exact hi
    have hplive : ∀ q, p = some q → (h.get q).isSome := by
      intro q hq
      obtain ⟨_, ⟨bq, hbq⟩, _⟩ := protoWalk_ok hw q hq
      unfold Heap.objectBase at hbq
      cases hgq : h.get q with
      | none => simp [hgq] at hbq
      | some _ => simp
    have hpo : ∀ i, h'.protoOf i = if i = obj then p else h.protoOf i := by
      intro i
      unfold Heap.protoOf
      rw [hget]
      split
      · cases o <;> simp_all [HeapObject.withBase, HeapObject.proto?]
      · rfl
    refine ⟨hac, v.closed.preserve hlive ?_ ?_, ?_⟩
    · intro i oi hoi
      rw [hget] at hoi
      split at hoi
      · right
        intro j hj
        obtain rfl := Option.some.inj hoi
        rcases withBase_contains hob rfl hj with hc | hc
        · exact hlive j (v.closed.cells obj o j hgo hc)
        · exact hlive j (hplive j hc)
      · exact .inl hoi
    · intro i hi
      left
      exact (isRoot_congr (h := h) (h' := h') (by rw [← hh']) (by rw [← hh']) (by rw [← hh'])
        (by rw [← hh'])).1 hi
    · -- chains from the new prototype avoid `obj`
      have havoid : ∀ q, h.ProtoEnds q → ∀ st vis, h.protoWalk obj st vis (some q) = .ok () →
          h'.ProtoEnds q := by
        intro q hq
        induction hq with
        | intro q hn ih =>
          intro st vis hwq
          obtain ⟨hqo, _, hnext⟩ := protoWalk_ok hwq q rfl
          rw [protoEnds_iff]
          intro r hr
          rw [hpo, if_neg hqo] at hr
          obtain ⟨br, hbr, hbp⟩ := protoOf_iff.1 hr
          obtain ⟨st', vis', hw'⟩ := hnext r hr
          exact ih br r hbr hbp st' vis' hw'
      have hobj : h'.ProtoEnds obj := by
        rw [protoEnds_iff]
        intro r hr
        rw [hpo, if_pos rfl] at hr
        rw [hr] at hw
        exact havoid r (v.proto r) 0 [] hw
      intro i
      have : ∀ i, h.ProtoEnds i → h'.ProtoEnds i := by
        intro i hi
        induction hi with
        | intro i hn ih =>
          by_cases hio : i = obj
          · rw [hio]; exact hobj
          · rw [protoEnds_iff]
            intro r hr
            rw [hpo, if_neg hio] at hr
            obtain ⟨br, hbr, hbp⟩ := protoOf_iff.1 hr
            exact ih br r hbr hbp
      exact this i (v.proto i)

/-! ## Persistent roots and `symbol_for` -/

theorem pushEnvRoot_inv {h : Heap} (v : h.Inv) (e : HeapId) (he : (h.get e).isSome) :
    (h.pushEnvRoot e).2.Inv := by
  have hac := (pushEnvRoot_cases h e v.acc).2
  obtain ⟨h1, hg, ⟨er, her⟩ | ⟨c, her⟩⟩ := (pushEnvRoot_cases h e v.acc).1
  · rw [her]; exact v.gc hg
  · rw [her] at hac ⊢
    refine (v.gc hg).frame hac rfl ?_
    intro i hi
    cases hi with
    | extra hm => simp at hm
    | stack w hm hw => exact .inl (.stack w hm hw)
    | envStack hm =>
      rcases List.mem_append.1 hm with hm | hm
      · exact .inl (.envStack hm)
      · simp at hm; subst hm
        right
        rw [hg.get v.acc.ok (.root (.extra (by simp)) he)]; exact he
    | persistent w hm hw => exact .inl (.persistent w hm hw)
    | registryKey s hm => exact .inl (.registryKey s hm)
    | registrySymbol k hm => exact .inl (.registrySymbol k hm)

theorem addRoot_inv {h : Heap} (v : h.Inv) (w : Value) (hw : ∀ i, w.Is i → (h.get i).isSome) :
    (h.addRoot w).2.Inv := by
  have hac := (addRoot_cases h w v.acc).2
  obtain ⟨h1, hg, ⟨_, e, he⟩ | ⟨_, c1, c2, he⟩ | ⟨idx, rest, _, _, he⟩⟩ := (addRoot_cases h w v.acc).1
  · rw [he]; exact v.gc hg
  · rw [he] at hac ⊢
    refine (v.gc hg).frame hac rfl ?_
    intro i hi
    cases hi with
    | extra hm => simp at hm
    | stack w hm hw => exact .inl (.stack w hm hw)
    | envStack hm => exact .inl (.envStack hm)
    | persistent w' hm hw' =>
      rcases List.mem_append.1 hm with hm | hm
      · exact .inl (.persistent w' hm hw')
      · simp at hm; subst hm
        right
        rw [hg.get v.acc.ok (.root (.extra (Value.mem_refs.2 hw')) (hw i hw'))]; exact hw i hw'
    | registryKey s hm => exact .inl (.registryKey s hm)
    | registrySymbol k hm => exact .inl (.registrySymbol k hm)
  · rw [he] at hac ⊢
    refine v.frame hac rfl ?_
    intro i hi
    cases hi with
    | extra hm => simp at hm
    | stack w hm hw => exact .inl (.stack w hm hw)
    | envStack hm => exact .inl (.envStack hm)
    | persistent w' hm hw' =>
      rcases List.mem_or_eq_of_mem_set hm with hm | hm
      · exact .inl (.persistent w' hm hw')
      · simp at hm; subst hm
        exact .inr (hw i hw')
    | registryKey s hm => exact .inl (.registryKey s hm)
    | registrySymbol k hm => exact .inl (.registrySymbol k hm)

theorem setRoot_inv {h : Heap} (v : h.Inv) (id : Nat) (w : Value)
    (hw : ∀ i, w.Is i → (h.get i).isSome) : (h.setRoot id w).Inv := by
  have hac := setRoot_acc h id w v.acc
  unfold Heap.setRoot at hac ⊢
  split
  · rename_i heq
    rw [heq] at hac
    refine v.frame hac rfl ?_
    intro i hi
    cases hi with
    | extra hm => simp at hm
    | stack w hm hw => exact .inl (.stack w hm hw)
    | envStack hm => exact .inl (.envStack hm)
    | persistent w' hm hw' =>
      rcases List.mem_or_eq_of_mem_set hm with hm | hm
      · exact .inl (.persistent w' hm hw')
      · simp at hm; subst hm
        exact .inr (hw i hw')
    | registryKey s hm => exact .inl (.registryKey s hm)
    | registrySymbol k hm => exact .inl (.registrySymbol k hm)
  · exact v

theorem removeRoot_inv {h : Heap} (v : h.Inv) (id : Nat) : (h.removeRoot id).Inv := by
  have hac := removeRoot_acc h id v.acc
  unfold Heap.removeRoot at hac ⊢
  split
  · rename_i heq
    rw [heq] at hac
    refine v.frame hac rfl ?_
    intro i hi
    cases hi with
    | extra hm => simp at hm
    | stack w hm hw => exact .inl (.stack w hm hw)
    | envStack hm => exact .inl (.envStack hm)
    | persistent w' hm hw' =>
      rcases List.mem_or_eq_of_mem_set hm with hm | hm
      · exact .inl (.persistent w' hm hw')
      · simp at hm
    | registryKey s hm => exact .inl (.registryKey s hm)
    | registrySymbol k hm => exact .inl (.registrySymbol k hm)
  · exact v

/-- What `registryInsertSorted` does when the key is not registered yet. -/
theorem registryInsertSorted_spec {h : Heap} (r : RegOk h) (key sym : HeapId) {u : List Nat}
    (hk : h.get key = some (.string u)) (hs : ∃ n d, h.get sym = some (.symbol n d))
    (hfresh : ∀ e ∈ h.symbolRegistry, e.2 ≠ sym)
    (hnew : ∀ i, h.keyAt i ≠ some u) :
    RegOk (h.registryInsertSorted key sym).2 ∧ (h.registryInsertSorted key sym).1 = .ok () ∧
    (key, sym) ∈ (h.registryInsertSorted key sym).2.symbolRegistry ∧
    (h.registryInsertSorted key sym).2.slots = h.slots ∧
    (∀ e, e ∈ (h.registryInsertSorted key sym).2.symbolRegistry → e ∈ h.symbolRegistry ∨ e = (key, sym)) := by
  unfold Heap.registryInsertSorted
  rw [getString_of_get hk]
  simp only
  rcases registrySearch_full r u with ⟨idx, _, hidx⟩ | ⟨pos, hpos, hple, hlo, hhi⟩
  · exact absurd hidx (hnew idx)
  · rw [hpos]
    simp only
    have hget : ∀ i, ({ h with
        symbolRegistry := h.symbolRegistry.take pos ++ (key, sym) :: h.symbolRegistry.drop pos } :
        Heap).get i = h.get i := fun i => by rw [Heap.get_eq, Heap.get_eq]
    have hgs : ∀ i, ({ h with
        symbolRegistry := h.symbolRegistry.take pos ++ (key, sym) :: h.symbolRegistry.drop pos } :
        Heap).getString i = h.getString i := fun i => by
      unfold Heap.getString; rw [hget]
    have hmem : ∀ e, e ∈ h.symbolRegistry.take pos ++ (key, sym) :: h.symbolRegistry.drop pos →
        e ∈ h.symbolRegistry ∨ e = (key, sym) := by
      intro e he
      simp only [List.mem_append, List.mem_cons] at he
      rcases he with he | he | he
      · exact .inl (List.mem_of_mem_take he)
      · exact .inr he
      · exact .inl (List.mem_of_mem_drop he)
    refine ⟨⟨?_, ?_, ?_, ?_⟩, trivial, by simp, trivial, hmem⟩
    · intro e he
      rw [hget]
      rcases hmem e he with h1 | rfl
      · exact r.keys e h1
      · exact ⟨u, hk⟩
    · intro e he
      rw [hget]
      rcases hmem e he with h1 | rfl
      · exact r.syms e h1
      · exact hs
    · simp only [hgs]
      have hsorted := r.sorted
      rw [← List.take_append_drop pos h.symbolRegistry, List.pairwise_append] at hsorted
      rw [List.pairwise_append, List.pairwise_cons]
      refine ⟨hsorted.1, ⟨?_, hsorted.2.1⟩, ?_⟩
      · intro e he ua ub hua hub
        rw [getString_of_get hk] at hua
        obtain rfl := Option.some.inj hua
        obtain ⟨j, hj⟩ := List.mem_iff_getElem?.1 he
        rw [List.getElem?_drop] at hj
        exact hhi (pos + j) ub (by omega) (by simp [Heap.keyAt, hj, hub])
      · intro e he f hf ua ub hua hub
        rcases List.mem_cons.1 hf with rfl | hf
        · rw [getString_of_get hk] at hub
          obtain rfl := Option.some.inj hub
          obtain ⟨j, hj⟩ := List.mem_iff_getElem?.1 he
          rw [List.getElem?_take] at hj
          split at hj
          · rename_i hjp
            exact hlo j ua hjp (by simp [Heap.keyAt, hj, hua])
          · simp at hj
        · exact hsorted.2.2 e he f hf ua ub hua hub
    · have hnd := r.nodup
      rw [← List.take_append_drop pos h.symbolRegistry, List.map_append, List.nodup_append] at hnd
      simp only [List.map_append, List.map_cons]
      rw [List.nodup_append, List.nodup_cons]
      have hnot : ∀ e ∈ h.symbolRegistry, sym ≠ e.2 := fun e he hx => hfresh e he hx.symm
      refine ⟨hnd.1, ⟨?_, hnd.2.1⟩, ?_⟩
      · intro hx
        obtain ⟨e, he, hes⟩ := List.mem_map.1 hx
        exact hfresh e (List.mem_of_mem_drop he) hes
      · intro x hx y hy
        rcases List.mem_cons.1 hy with rfl | hy
        · obtain ⟨e, he, hes⟩ := List.mem_map.1 hx
          intro hxx
          exact hfresh e (List.mem_of_mem_take he) (hes.trans hxx)
        · exact hnd.2.2 x hx y hy

theorem RegOk.reachable {h : Heap} (r : RegOk h) {e : HeapId × HeapId} (he : e ∈ h.symbolRegistry)
    {i : HeapId} (hi : i = e.1 ∨ i = e.2) : h.Reachable [] i := by
  rcases hi with rfl | rfl
  · obtain ⟨u, hu⟩ := r.keys e he
    exact .root (.registryKey e.2 he) (by rw [hu]; rfl)
  · obtain ⟨n, d, hu⟩ := r.syms e he
    exact .root (.registrySymbol e.1 he) (by rw [hu]; rfl)

theorem RegOk.keep {h h' : Heap} (r : RegOk h) (k : Keep h h') :
    RegOk h' ∧ ∀ i, h'.keyAt i = h.keyAt i := by
  have hgs : ∀ e ∈ h.symbolRegistry, h'.getString e.1 = h.getString e.1 := by
    intro e he
    unfold Heap.getString
    rw [k.get e.1 (r.reachable he (.inl rfl))]
  refine ⟨⟨?_, ?_, ?_, by rw [k.reg]; exact r.nodup⟩, ?_⟩
  · rw [k.reg]; intro e he
    rw [k.get e.1 (r.reachable he (.inl rfl))]; exact r.keys e he
  · rw [k.reg]; intro e he
    rw [k.get e.2 (r.reachable he (.inr rfl))]; exact r.syms e he
  · rw [k.reg]
    refine r.sorted.imp_of_mem ?_
    intro a b ha hb hab
    rw [hgs a ha, hgs b hb]; exact hab
  · intro i
    unfold Heap.keyAt
    rw [k.reg]
    cases hx : h.symbolRegistry[i]? with
    | none => rfl
    | some e => exact hgs e (List.mem_of_getElem? hx)

theorem Keep.reserve {h : Heap} (v : h.Inv) : Keep h h.reserveRegistryInsert.2 := by
  have hac := (reserveRegistryInsert_cases h v.acc).2
  obtain ⟨h1, hg, ⟨e, he⟩ | ⟨c, he⟩⟩ := (reserveRegistryInsert_cases h v.acc).1
  · have hf := hg.frame
    rw [he]
    exact ⟨v.gc hg, fun i hi => hg.reachable v.acc.ok hi, fun i hi => hg.get v.acc.ok hi.mono,
      hf.2.2.2.2.2.2.1, ⟨by simp [hf], by simp [hf]⟩, hf.2.2.2.2.1⟩
  · have hf := hg.frame
    rw [he] at hac ⊢
    have hroot : ∀ {E i}, ({ h1 with caps := { h1.caps with registry := c } } : Heap).IsRoot E i ↔
        h1.IsRoot E i := fun {E i} => isRoot_congr (h := h1)
          (h' := { h1 with caps := { h1.caps with registry := c } }) rfl rfl rfl rfl
    have hget : ∀ i, ({ h1 with caps := { h1.caps with registry := c } } : Heap).get i = h1.get i :=
      fun i => by rw [Heap.get_eq, Heap.get_eq]
    refine ⟨(v.gc hg).frame hac rfl (fun i hi => .inl (hroot.1 hi)), ?_, ?_,
      hf.2.2.2.2.2.2.1, ⟨by simp [hf], by simp [hf]⟩, hf.2.2.2.2.1⟩
    · intro i hi
      exact (hg.reachable v.acc.ok hi).transfer (fun _ h => hroot.2 h) (fun i _ => hget i)
    · intro i hi
      rw [hget]; exact hg.get v.acc.ok hi.mono

/-- Truncating root stacks does not touch the registry. -/
theorem RegOk.truncate {h : Heap} (r : RegOk h) (n m : Nat) : RegOk (h.truncateRoots n m) :=
  ⟨fun e he => by rw [truncate_get]; exact r.keys e he,
   fun e he => by rw [truncate_get]; exact r.syms e he,
   by
    have : ∀ i, (h.truncateRoots n m).getString i = h.getString i := fun i => by
      unfold Heap.getString; rw [truncate_get]
    simp only [this]
    exact r.sorted,
   r.nodup⟩

/-- What `symbol_for` guarantees on the state it leaves and on its answer. -/
def ForPost (u : List Nat) (r : Except VmError HeapId) (h' : Heap) : Prop :=
  h'.Inv ∧ RegOk h' ∧ ∀ sym, r = .ok sym →
    ∃ k, (k, sym) ∈ h'.symbolRegistry ∧ h'.get k = some (.string u)

theorem symbolForCreate_post {h : Heap} (v : h.Inv) (r : RegOk h) (key : HeapId) {u : List Nat}
    (hk : h.get key = some (.string u)) (hnew : ∀ i, h.keyAt i ≠ some u) :
    ForPost u (h.symbolForCreate key).1 (h.symbolForCreate key).2 := by
  have hvs : ∀ w ∈ [Value.string key], ∀ i, w.Is i → (h.get i).isSome := by
    intro w hw i hi
    simp at hw; subst hw; cases hi
    rw [hk]; rfl
  have hpush := (pushRoots_inv v [Value.string key] hvs).2.2.1
  have k1 := Keep.push v [Value.string key] hvs
  generalize hr1 : h.pushRoots [Value.string key] [] = r1 at hpush k1
  have body : ForPost u
      (andThen r1 fun _ h =>
        andThen (h.newSymbol (some key)) fun sym h =>
        andThen (h.pushRoots [.symbol sym] []) fun _ h =>
        andThen (h.registryInsert key sym) fun _ h =>
        (.ok sym, h)).1
      (andThen r1 fun _ h =>
        andThen (h.newSymbol (some key)) fun sym h =>
        andThen (h.pushRoots [.symbol sym] []) fun _ h =>
        andThen (h.registryInsert key sym) fun _ h =>
        (.ok sym, h)).2 := by
    have r1ok := r.keep k1
    refine andThen_post (P := ForPost u) (fun e he => ⟨k1.inv, r1ok.1, by simp⟩) fun x hx => ?_
    obtain ⟨hkr, hkg⟩ := hpush x hx (.string key) (by simp) key .string
    have n1 := newSymbol_post k1.inv (some key) (by
      intro i hi; obtain rfl := Option.some.inj hi; rw [hkg, hk]; rfl)
    generalize hr2 : r1.2.newSymbol (some key) = r2 at n1
    obtain ⟨k2, hs2⟩ := n1
    have r2ok := r1ok.1.keep k2
    refine andThen_post (P := ForPost u) (fun e he => ⟨k2.inv, r2ok.1, by simp⟩) fun sym hsym => ?_
    obtain ⟨⟨n, hn⟩, hne⟩ := hs2 sym hsym
    have hvs3 : ∀ w ∈ [Value.symbol sym], ∀ i, w.Is i → (r2.2.get i).isSome := by
      intro w hw i hi
      simp at hw; subst hw; cases hi
      rw [hn]; rfl
    have hpush3 := (pushRoots_inv k2.inv [Value.symbol sym] hvs3).2.2.1
    have k3 := Keep.push k2.inv [Value.symbol sym] hvs3
    generalize hr3 : r2.2.pushRoots [Value.symbol sym] [] = r3 at hpush3 k3
    have r3ok := r2ok.1.keep k3
    refine andThen_post (P := ForPost u) (fun e he => ⟨k3.inv, r3ok.1, by simp⟩) fun y hy => ?_
    obtain ⟨hsr, hsg⟩ := hpush3 y hy (.symbol sym) (by simp) sym .symbol
    have k4 := Keep.reserve k3.inv
    unfold Heap.registryInsert
    generalize hr4 : r3.2.reserveRegistryInsert = r4 at k4
    have r4ok := r3ok.1.keep k4
    have k14 := (k2.trans k3).trans k4
    have hsym4 : r4.2.get sym = some (.symbol n (some key)) := by
      rw [k4.get sym hsr, hsg, hn]
    have hkey4 : r4.2.get key = some (.string u) := by
      rw [k14.get key hkr, hkg, hk]
    have hreg4 : r4.2.symbolRegistry = r1.2.symbolRegistry := k14.reg
    have ins := registryInsertSorted_spec r4ok.1 key sym hkey4 ⟨n, _, hsym4⟩
      (fun e he => hne e.2 (r1ok.1.reachable (by rw [← hreg4]; exact he) (.inr rfl)))
      (fun i hi => hnew i (by rw [← r1ok.2 i, ← r2ok.2 i, ← r3ok.2 i, ← r4ok.2 i]; exact hi))
    have iacc := (Tr.registryInsertSorted r4.2 key sym k4.inv.acc).1
    have irest : (r4.2.registryInsertSorted key sym).2.rootStack = r4.2.rootStack ∧
        (r4.2.registryInsertSorted key sym).2.envRootStack = r4.2.envRootStack ∧
        (r4.2.registryInsertSorted key sym).2.persistentRoots = r4.2.persistentRoots := by
      unfold Heap.registryInsertSorted
      split
      · exact ⟨rfl, rfl, rfl⟩
      · split <;> exact ⟨rfl, rfl, rfl⟩
    generalize hr5 : r4.2.registryInsertSorted key sym = r5 at ins iacc irest
    obtain ⟨i1, i2, i3, i4, i5⟩ := ins
    have inv5 : r5.2.Inv := by
      refine k4.inv.frame iacc i4 ?_
      intro i hi
      cases hi with
      | extra hm => simp at hm
      | stack w hm hw => exact .inl (.stack w (by rw [← irest.1]; exact hm) hw)
      | envStack hm => exact .inl (.envStack (by rw [← irest.2.1]; exact hm))
      | persistent w hm hw => exact .inl (.persistent w (by rw [← irest.2.2]; exact hm) hw)
      | registryKey s hm =>
        rcases i5 _ hm with h1 | h1
        · exact .inl (.registryKey s h1)
        · right
          obtain ⟨rfl, rfl⟩ := Prod.mk.inj h1
          rw [hkey4]; rfl
      | registrySymbol s hm =>
        rcases i5 _ hm with h1 | h1
        · exact .inl (.registrySymbol s h1)
        · right
          obtain ⟨rfl, rfl⟩ := Prod.mk.inj h1
          rw [hsym4]; rfl
    have hkey5 : r5.2.get key = some (.string u) := by
      rw [Heap.get_eq, i4, ← Heap.get_eq]; exact hkey4
    have hin : ForPost u
        (andThen (andThen r4 fun _ h => h.registryInsertSorted key sym) fun _ h =>
          ((.ok sym : Except VmError HeapId), h)).1
        (andThen (andThen r4 fun _ h => h.registryInsertSorted key sym) fun _ h =>
          ((.ok sym : Except VmError HeapId), h)).2 := by
      unfold andThen
      cases hr4' : r4.1 with
      | error e => exact ⟨k4.inv, r4ok.1, by simp⟩
      | ok z =>
        simp only [hr5, i2]
        refine ⟨inv5, i1, fun sym' hs' => ?_⟩
        obtain rfl := Except.ok.inj hs'
        exact ⟨key, i3, hkey5⟩
    exact hin
  have hns : h.symbolForCreate key =
      ((andThen r1 fun _ h =>
        andThen (h.newSymbol (some key)) fun sym h =>
        andThen (h.pushRoots [.symbol sym] []) fun _ h =>
        andThen (h.registryInsert key sym) fun _ h =>
        (.ok sym, h)).1,
      (andThen r1 fun _ h =>
        andThen (h.newSymbol (some key)) fun sym h =>
        andThen (h.pushRoots [.symbol sym] []) fun _ h =>
        andThen (h.registryInsert key sym) fun _ h =>
        (.ok sym, h)).2.truncateRoots h.rootStack.length h.envRootStack.length) := by
    rw [← hr1]; rfl
  rw [hns]
  refine ⟨truncate_inv body.1 _ _, body.2.1.truncate _ _, fun sym hsym => ?_⟩
  obtain ⟨k, hkm, hkg⟩ := body.2.2 sym hsym
  exact ⟨k, hkm, by rw [truncate_get]; exact hkg⟩

theorem symbolFor_post {h : Heap} (v : h.Inv) (r : RegOk h) (key : HeapId) :
    (h.symbolFor key).2.Inv ∧ RegOk (h.symbolFor key).2 ∧
    ∀ sym, (h.symbolFor key).1 = .ok sym → ∃ u k, h.get key = some (.string u) ∧
      (k, sym) ∈ (h.symbolFor key).2.symbolRegistry ∧
      (h.symbolFor key).2.get k = some (.string u) := by
  unfold Heap.symbolFor
  cases hks : h.getString key with
  | none => exact ⟨v, r, by simp⟩
  | some u =>
    have hkg := get_of_getString hks
    simp only
    rcases registrySearch_full r u with ⟨idx, hidx, hka⟩ | ⟨pos, hpos, hple, hlo, hhi⟩
    · have ⟨e, he, hes⟩ : ∃ e, h.symbolRegistry[idx]? = some e ∧ h.getString e.1 = some u := by
        unfold Heap.keyAt at hka
        exact Option.bind_eq_some_iff.1 hka
      have : h.registryGet u = some (some e.2) := by simp [Heap.registryGet, hidx, he]
      simp only [this]
      refine ⟨v, r, fun sym hsym => ?_⟩
      obtain rfl := Except.ok.inj hsym
      exact ⟨u, e.1, hkg, List.mem_of_getElem? he, get_of_getString hes⟩
    · have : h.registryGet u = some none := by simp [Heap.registryGet, hpos]
      simp only [this]
      have hnew : ∀ i, h.keyAt i ≠ some u := by
        intro i hi
        rcases Nat.lt_or_ge i pos with hlt | hge
        · have := hlo i u hlt hi
          rw [cmpUnits_refl] at this; simp at this
        · have := hhi i u hge hi
          rw [cmpUnits_refl] at this; simp at this
      have k1 := Keep.ensure v Heap.symbolForBytes [key]
      have hkk := (ensure_inv v Heap.symbolForBytes [key]).2.2.1 key
        (.root (.extra (by simp)) (by rw [hkg]; rfl))
      generalize h.ensure Heap.symbolForBytes [key] = r1 at k1 hkk
      have r1ok := r.keep k1
      have fin : ForPost u (andThen r1 fun _ h => h.symbolForCreate key).1
          (andThen r1 fun _ h => h.symbolForCreate key).2 := by
        refine andThen_post (P := ForPost u) (fun e he => ⟨k1.inv, r1ok.1, by simp⟩) fun x hx => ?_
        exact symbolForCreate_post k1.inv r1ok.1 key (hkk.trans hkg)
          (fun i => by rw [r1ok.2 i]; exact hnew i)
      refine ⟨fin.1, fin.2.1, fun sym hsym => ?_⟩
      obtain ⟨k, hkm, hkg'⟩ := fin.2.2 sym hsym
      exact ⟨u, k, hkg, hkm, hkg'⟩

/-! ## Every legal step, every legal history -/

theorem alloc_registry (h : Heap) (o : HeapObject) (b : Nat) (a : h.Acc) :
    (h.allocUnchecked o b).2.symbolRegistry = h.symbolRegistry := by
  obtain ⟨hE, hg, ⟨e, he⟩ | ⟨id, h', he, _, _, _, _, _, _, r5, _⟩⟩ := alloc_get h o b a
  · rw [he]; exact hg.frame.2.2.2.2.2.2.1
  · rw [he]; exact r5

theorem pushRoots_registry (h : Heap) (vs : List Value) (a : h.Acc) :
    (h.pushRoots vs []).2.symbolRegistry = h.symbolRegistry := by
  obtain ⟨h1, hg, ⟨e, he⟩ | ⟨c, he⟩⟩ := (pushRoots_cases h vs [] a).1 <;> rw [he] <;>
    exact hg.frame.2.2.2.2.2.2.1

/-- Keeps the accounting invariant and the registry. -/
def RegSame (h h' : Heap) : Prop := h.Acc → h'.Acc ∧ h'.symbolRegistry = h.symbolRegistry

theorem RegSame.andThen {α β : Type} {h : Heap} {r : Except VmError α × Heap}
    {k : α → Heap → Except VmError β × Heap} (h1 : RegSame h r.2) (h2 : ∀ a x, RegSame x (k a x).2) :
    RegSame h (andThen r k).2 := by
  intro a
  unfold Heap.andThen
  split
  · exact h1 a
  · rename_i x hx
    have := h2 x r.2 (h1 a).1
    exact ⟨this.1, this.2.trans (h1 a).2⟩

theorem RegSame.inScope {α : Type} {h : Heap} {body : Heap → Except VmError α × Heap}
    (hb : RegSame h (body h).2) : RegSame h (h.inScope body).2 := fun a =>
  ⟨(Tr.truncate (body h).2 _ _ (hb a).1).1, (hb a).2⟩

theorem RegSame.ensure (h : Heap) (add : Heap → Nat) (E : List HeapId) :
    RegSame h (h.ensure add E).2 := fun a =>
  ⟨ensure_acc _ _ _ a, (ensure_gc h _ _).frame.2.2.2.2.2.2.1⟩

theorem RegSame.push (h : Heap) (vs : List Value) : RegSame h (h.pushRoots vs []).2 := fun a =>
  ⟨(pushRoots_cases h vs [] a).2, pushRoots_registry h vs a⟩

theorem RegSame.alloc (h : Heap) (o : HeapObject) (b : Nat) : RegSame h (h.allocUnchecked o b).2 :=
  fun a => ⟨alloc_acc h o b a, alloc_registry h o b a⟩

theorem RegSame.allocSymbol (h : Heap) (d : Option HeapId) : RegSame h (h.allocSymbol d).2 :=
  fun a => RegSame.alloc _ _ _ (Heap.Acc.congr a rfl rfl rfl rfl a.lim rfl)

theorem step_registry (h : Heap) (op : Op) (a : h.Acc) (hop : ∀ k, op ≠ .symbolFor k) :
    (h.step op).symbolRegistry = h.symbolRegistry := by
  cases op with
  | symbolFor k => exact absurd rfl (hop k)
  | collect E => rfl
  | allocString u =>
    exact (RegSame.andThen (.ensure h _ _) (fun _ _ => .alloc _ _ _) a).2
  | newSymbol d =>
    exact (RegSame.inScope (RegSame.andThen (.push h _) fun _ h2 => RegSame.andThen (.ensure h2 _ _)
      fun _ h3 => .allocSymbol h3 d) a).2
  | allocObject p ps =>
    exact (RegSame.inScope (RegSame.andThen (.push h _) fun _ h2 => RegSame.andThen (.ensure h2 _ _)
      fun _ h3 => .alloc h3 _ _) a).2
  | allocCell o b => exact alloc_registry h o b a
  | writeCell id o b =>
    obtain ⟨e, ⟨_, hg⟩ | ⟨cur, h1, s, _, _, _, _, _, _, _, _, _, _, _, _, _, r5, _⟩⟩ :=
      (writeCell_cases h id o b a).1
    · exact hg.frame.2.2.2.2.2.2.1
    · exact r5
  | setPrototype o p =>
    show (h.setPrototype o p).2.symbolRegistry = _
    rcases setPrototype_cases h o p with ⟨e, he⟩ | ⟨b, _, _, _, he⟩ <;> rw [he]
  | pushRoots vs => exact pushRoots_registry h vs a
  | pushEnvRoot e =>
    show (h.pushEnvRoot e).2.symbolRegistry = _
    obtain ⟨h1, hg, ⟨er, her⟩ | ⟨c, her⟩⟩ := (pushEnvRoot_cases h e a).1 <;> rw [her] <;>
      exact hg.frame.2.2.2.2.2.2.1
  | truncateRoots n m => rfl
  | addRoot w =>
    show (h.addRoot w).2.symbolRegistry = _
    obtain ⟨h1, hg, ⟨_, e, he⟩ | ⟨_, c1, c2, he⟩ | ⟨idx, rest, _, _, he⟩⟩ := (addRoot_cases h w a).1 <;>
      rw [he]
    · exact hg.frame.2.2.2.2.2.2.1
    · exact hg.frame.2.2.2.2.2.2.1
  | setRoot id w =>
    show (h.setRoot id w).symbolRegistry = _
    unfold Heap.setRoot; split <;> rfl
  | removeRoot id =>
    show (h.removeRoot id).symbolRegistry = _
    unfold Heap.removeRoot; split <;> rfl

theorem step_inv (h : Heap) (op : Op) (hp : op.Pre h) (v : h.Inv) (r : RegOk h) :
    (h.step op).Inv ∧ RegOk (h.step op) := by
  have ev := Tr.step h op v.acc
  cases op with
  | symbolFor k => exact ⟨(symbolFor_post v r k).1, (symbolFor_post v r k).2.1⟩
  | collect E => exact ⟨v.gc (.inr rfl), r.preserve ev.2 (step_registry h _ v.acc (by simp))⟩
  | allocString u => exact ⟨allocString_inv v u, r.preserve ev.2 (step_registry h _ v.acc (by simp))⟩
  | newSymbol d =>
    exact ⟨(newSymbol_post v d (fun i hi => by obtain ⟨u, hu⟩ := hp i hi; rw [hu]; rfl)).1.inv,
      r.preserve ev.2 (step_registry h _ v.acc (by simp))⟩
  | allocObject p ps =>
    exact ⟨allocObject_inv v p ps hp, r.preserve ev.2 (step_registry h _ v.acc (by simp))⟩
  | allocCell o b =>
    exact ⟨(alloc_inv v o b hp).1, r.preserve ev.2 (step_registry h _ v.acc (by simp))⟩
  | writeCell id o b =>
    exact ⟨writeCell_inv v id o b hp.1 hp.2, r.preserve ev.2 (step_registry h _ v.acc (by simp))⟩
  | setPrototype o p =>
    exact ⟨setPrototype_inv v o p, r.preserve ev.2 (step_registry h _ v.acc (by simp))⟩
  | pushRoots vs =>
    exact ⟨(pushRoots_inv v vs hp).1, r.preserve ev.2 (step_registry h _ v.acc (by simp))⟩
  | pushEnvRoot e =>
    exact ⟨pushEnvRoot_inv v e hp, r.preserve ev.2 (step_registry h _ v.acc (by simp))⟩
  | truncateRoots n m =>
    exact ⟨truncate_inv v n m, r.preserve ev.2 (step_registry h _ v.acc (by simp))⟩
  | addRoot w =>
    exact ⟨addRoot_inv v w hp, r.preserve ev.2 (step_registry h _ v.acc (by simp))⟩
  | setRoot id w =>
    exact ⟨setRoot_inv v id w hp, r.preserve ev.2 (step_registry h _ v.acc (by simp))⟩
  | removeRoot id =>
    exact ⟨removeRoot_inv v id, r.preserve ev.2 (step_registry h _ v.acc (by simp))⟩

theorem run_inv (ops : List Op) : ∀ h : Heap, h.Legal ops → h.Inv → RegOk h →
    (h.run ops).Inv ∧ RegOk (h.run ops) := by
  induction ops with
  | nil => intro h _ v r; exact ⟨v, r⟩
  | cons op ops ih =>
    intro h hl v r
    have := step_inv h op hl.1 v r
    exact ih (h.step op) hl.2 this.1 this.2

theorem new_inv (mb thr : Nat) (hmb : mb < usizeMax) : (Heap.new mb thr).Inv ∧ RegOk (Heap.new mb thr) := by
  refine ⟨⟨new_acc mb thr hmb, ⟨?_, ?_⟩, ?_⟩, ⟨?_, ?_, ?_, ?_⟩⟩
  · intro i o j ho; simp [Heap.new, Heap.get, validateIn] at ho
  · intro i hi
    cases hi <;> simp_all [Heap.new]
  · intro i
    rw [protoEnds_iff]
    intro p hp
    simp [Heap.protoOf, Heap.new, Heap.get, validateIn] at hp
  · simp [Heap.new]
  · simp [Heap.new]
  · simp [Heap.new]
  · simp [Heap.new]

end Verif.Heap
