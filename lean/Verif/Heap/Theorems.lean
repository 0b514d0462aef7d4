import Verif.Heap.Roots

/-! # C01–C08, C49: the garbage-collected heap of `vm-js`. -/

namespace Verif.Heap

/-- A limit below `usize::MAX`. -/
abbrev LimitOk (mb : Nat) : Prop := mb < usizeMax

/-! ## A concrete history, used to show that the hypotheses of the theorems are met -/

/-- A string, an object with a property under that string key whose value is another object, the first
object rooted, and an unreferenced string. -/
def demoOps : List Op :=
  [.allocString [97], .allocObject none [],
   .allocObject (some ⟨1, 0⟩) [⟨.string ⟨0, 0⟩, true, true, .data (.object ⟨1, 0⟩) true⟩],
   .allocString [120], .pushRoots [.object ⟨2, 0⟩]]

def demoHeap : Heap := (Heap.new 1000000 900000).run demoOps

def demoObj : HeapObject := .object ⟨some ⟨1, 0⟩, true,
    [⟨.string ⟨0, 0⟩, true, true, .data (.object ⟨1, 0⟩) true⟩], none⟩

theorem demo_get2 : demoHeap.get ⟨2, 0⟩ = some demoObj := by decide +kernel
theorem demo_get3 : demoHeap.get ⟨3, 0⟩ = some (.string [120]) := by decide +kernel

/-- Checking a precondition through the executable list of stored handles. -/
theorem live_of_refs {h : Heap} {o : HeapObject} (hl : o.refs.all (fun i => (h.get i).isSome) = true) :
    ∀ i, o.Contains i → (h.get i).isSome := fun i hi =>
  List.all_eq_true.1 hl i (HeapObject.mem_refs.2 hi)

theorem demo_legal : (Heap.new 1000000 900000).Legal demoOps := by
  refine ⟨trivial, live_of_refs (by decide +kernel), live_of_refs (by decide +kernel), trivial, ?_, trivial⟩
  intro v hv i hi
  rw [List.mem_singleton] at hv
  subst hv; cases hi
  decide +kernel

theorem demo_reach2 : demoHeap.Reachable [] ⟨2, 0⟩ :=
  .root (.stack (.object ⟨2, 0⟩) (by decide +kernel) .object) (by decide +kernel)
theorem demo_reach0 : demoHeap.Reachable [] ⟨0, 0⟩ :=
  .step demo_reach2 demo_get2 (HeapObject.mem_refs.1 (by decide +kernel)) (by decide +kernel)


/-- A finite over-approximation of what is reachable. -/
theorem reachable_sub {h : Heap} {E : List HeapId} (S : List HeapId)
    (h1 : (h.rootIds E).all (· ∈ S) = true)
    (h2 : S.all (fun i => ((h.get i).map HeapObject.refs).getD [] |>.all (· ∈ S)) = true)
    {i : HeapId} (hr : h.Reachable E i) : i ∈ S := by
  induction hr with
  | root hr hl => exact of_decide_eq_true (List.all_eq_true.1 h1 _ (mem_rootIds.2 hr))
  | step hi ho hc hl ih =>
    have := List.all_eq_true.1 h2 _ ih
    rw [ho] at this
    exact of_decide_eq_true (List.all_eq_true.1 this _ (HeapObject.mem_refs.2 hc))

theorem demo_unreach3 : ¬ demoHeap.Reachable [] ⟨3, 0⟩ := fun hr =>
  absurd (reachable_sub [⟨2, 0⟩, ⟨1, 0⟩, ⟨0, 0⟩] (by decide +kernel) (by decide +kernel) hr) (by decide)

/-! ## C01 -/

/-- **C01** In every state any sequence of API calls can lead to, a collection leaves every handle that
is reachable from the roots valid and denoting exactly the same cell. -/
theorem C01_gc_keeps_reachable (mb thr : Nat) (hmb : LimitOk mb) (ops : List Op) (extra : List HeapId)
    (i : HeapId) (hr : ((Heap.new mb thr).run ops).Reachable extra i) :
    ∃ o, ((Heap.new mb thr).run ops).get i = some o ∧
      (((Heap.new mb thr).run ops).collect extra).get i = some o := by
  have ok := (Tr.run ops _ (new_acc mb thr hmb)).1.ok
  obtain ⟨o, ho⟩ := Option.isSome_iff_exists.1 hr.live
  exact ⟨o, ho, by rw [collect_get_reachable _ _ ok i hr]; exact ho⟩

/-- The object and the string it refers to survive. -/
example : (demoHeap.collect []).get ⟨2, 0⟩ = some demoObj ∧
    (demoHeap.collect []).get ⟨0, 0⟩ = some (.string [97]) := by
  obtain ⟨o, h1, h2⟩ := C01_gc_keeps_reachable 1000000 900000 (by decide) demoOps [] _ demo_reach2
  obtain ⟨o', h3, h4⟩ := C01_gc_keeps_reachable 1000000 900000 (by decide) demoOps [] _ demo_reach0
  have e1 : some o = some demoObj := h1.symm.trans demo_get2
  have e2 : some o' = some (.string [97]) := h3.symm.trans (by decide +kernel)
  exact ⟨h2.trans e1, h4.trans e2⟩

/-! ## C02 -/

theorem sum_eq_range (l : List Slot) (f : Slot → Nat) :
    (l.map f).sum = ((List.range l.length).map fun i => match l[i]? with
      | some s => f s | none => 0).sum := by
  congr 1
  apply List.ext_getElem (by simp)
  intro n h1 h2
  simp only [List.length_map, List.length_range] at h1 h2
  simp [List.getElem?_eq_getElem h1]

theorem sum_add_map (l : List Nat) (f g k : Nat → Nat) (hfg : ∀ i ∈ l, f i = g i + k i) :
    (l.map f).sum = (l.map g).sum + (l.map k).sum := by
  induction l with
  | nil => simp
  | cons a l ih =>
    simp only [List.map_cons, List.sum_cons]
    rw [ih (fun i hi => hfg i (List.mem_cons_of_mem _ hi)), hfg a (by simp)]
    omega

theorem collect_slot_cases (h : Heap) (extra : List HeapId) (ok : h.Ok) (idx : Nat) (s : Slot)
    (hs : h.slots[idx]? = some s) :
    (s.value.isSome → h.Reachable extra ⟨idx, s.generation⟩ → (h.collect extra).slots[idx]? = some s) ∧
    (¬ (s.value.isSome ∧ h.Reachable extra ⟨idx, s.generation⟩) →
      ∃ s', (h.collect extra).slots[idx]? = some s' ∧ s'.value = none) := by
  have hc := collect_slot h extra ok idx
  rw [hs] at hc
  simp only [Option.map_some] at hc
  constructor
  · intro hv hr
    have hg := collect_get_reachable h extra ok _ hr
    obtain ⟨o, ho⟩ := Option.isSome_iff_exists.1 hv
    have h0 : h.get ⟨idx, s.generation⟩ = some o := by
      rw [Heap.get_eq, cellIn_eq_some]; exact ⟨s, hs, rfl, ho⟩
    rw [h0, Heap.get_eq, cellIn_eq_some] at hg
    obtain ⟨s', hs', _, hv'⟩ := hg
    rw [hs'] at hc
    have hcs := Option.some.inj hc
    rw [hs', hcs]
    congr 1
    rw [hcs] at hv'
    unfold sweepSlot at hv' ⊢
    cases hsv : s.value with
    | none => simp [hsv] at ho
    | some oo =>
      by_cases hm : (h.mark extra).at idx = 0
      · simp [hsv, hm] at hv'
      · simp [hm]
  · intro hn
    refine ⟨_, hc, ?_⟩
    cases hsv : (sweepSlot s ((h.mark extra).at idx)).value with
    | none => rfl
    | some oo =>
      exfalso
      have hsome : s.value.isSome ∧ (sweepSlot s ((h.mark extra).at idx)) = s := by
        unfold sweepSlot at hsv ⊢
        cases hv : s.value with
        | none => simp [hv] at hsv
        | some x =>
          by_cases hm : (h.mark extra).at idx = 0
          · simp [hv, hm] at hsv
          · simp [hm]
      apply hn
      refine ⟨hsome.1, ?_⟩
      by_cases hr : h.Reachable extra ⟨idx, s.generation⟩
      · exact hr
      · have := collect_get_unreachable h extra ok _ hr
        rw [Heap.get_eq] at this
        have h2 : cellIn (h.collect extra).slots ⟨idx, s.generation⟩ = some oo := by
          rw [cellIn_eq_some]; exact ⟨_, hc, by rw [hsome.2], hsv⟩
        rw [this] at h2; simp at h2

/-- **C02** In every state any sequence of API calls can lead to, the handles that are valid after a
collection are exactly those that were reachable, the slots of the freed cells are on the free list, and
the byte counter drops by exactly the recorded size of the unreachable cells. -/
theorem C02_gc_frees_exactly_unreachable (mb thr : Nat) (hmb : LimitOk mb) (ops : List Op)
    (extra : List HeapId) :
    let h := (Heap.new mb thr).run ops
    (∀ i, ((h.collect extra).get i).isSome ↔ h.Reachable extra i) ∧
    (∀ i, (h.get i).isSome → ¬ h.Reachable extra i → i.index ∈ (h.collect extra).freeList) ∧
    (h.collect extra).usedBytes + h.garbageBytes extra = h.usedBytes := by
  intro h
  have ok : h.Ok := (Tr.run ops _ (new_acc mb thr hmb)).1.ok
  have okc := collect_ok h extra ok
  refine ⟨?_, ?_, ?_⟩
  · intro i
    constructor
    · intro hi
      by_cases hr : h.Reachable extra i
      · exact hr
      · rw [collect_get_unreachable h extra ok i hr] at hi; simp at hi
    · intro hr
      rw [collect_get_reachable h extra ok i hr]; exact hr.live
  · intro i hi hr
    obtain ⟨o, ho⟩ := Option.isSome_iff_exists.1 hi
    rw [Heap.get_eq, cellIn_eq_some] at ho
    obtain ⟨s, hs, hg, hv⟩ := ho
    have hn : ¬ (s.value.isSome ∧ h.Reachable extra ⟨i.index, s.generation⟩) := by
      rintro ⟨_, h2⟩; rw [hg] at h2; exact hr h2
    rw [okc.freeIff]
    exact (collect_slot_cases h extra ok i.index s hs).2 hn
  · rw [okc.used, ok.used]
    unfold Heap.liveBytes Heap.garbageBytes
    rw [sum_eq_range, sum_eq_range]
    have hlen : (h.collect extra).slots.length = h.slots.length := by
      rw [(collect_slots h extra ok).1]
      simp [(mark_iff h extra ok.marksLen ok.marksClear).1]
    rw [hlen]
    symm
    apply sum_add_map
    intro idx hidx
    have hlt : idx < h.slots.length := List.mem_range.1 hidx
    have hs : h.slots[idx]? = some h.slots[idx] := List.getElem?_eq_getElem hlt
    have hc := collect_slot_cases h extra ok idx _ hs
    rw [hs]
    simp only
    by_cases hv : (h.slots[idx]).value.isSome = true
    · by_cases hr : h.Reachable extra ⟨idx, (h.slots[idx]).generation⟩
      · rw [hc.1 hv hr]; simp [hv, hr]
      · obtain ⟨s', hs', hv'⟩ := hc.2 (fun hx => hr hx.2)
        rw [hs']; simp [hv, hr, hv']
    · obtain ⟨s', hs', hv'⟩ := hc.2 (fun hx => hv hx.1)
      rw [hs']; simp [hv, hv']

/-- The unreferenced string is freed. -/
example : (demoHeap.collect []).get ⟨3, 0⟩ = none ∧ 3 ∈ (demoHeap.collect []).freeList := by
  obtain ⟨h1, h2, _⟩ := C02_gc_frees_exactly_unreachable 1000000 900000 (by decide) demoOps []
  refine ⟨?_, h2 ⟨3, 0⟩ (by decide +kernel) demo_unreach3⟩
  have := mt (h1 ⟨3, 0⟩).1 demo_unreach3
  rw [Option.not_isSome_iff_eq_none] at this
  exact this

/-! ## C03 -/

theorem gens_lt {h : Heap} (ok : h.Ok) {idx : Nat} {s : Slot} (hs : h.slots[idx]? = some s) :
    s.generation < u32Mod := ok.gens s (List.mem_of_getElem? hs)

/-- **C03** Once a handle that was valid has become invalid, no continuation makes it valid again as
long as fewer than 2^32 collections have run since it was valid. -/
theorem C03_stale_handle_never_revives (mb thr : Nat) (hmb : LimitOk mb) (ops0 ops1 ops2 : List Op)
    (i : HeapId) :
    let h0 := (Heap.new mb thr).run ops0
    let h1 := h0.run ops1
    let h2 := h1.run ops2
    (h0.get i).isSome → h1.get i = none → h2.gcRuns - h0.gcRuns < 2 ^ 32 → h2.get i = none := by
  intro h0 h1 h2 hv hd hlt
  have a0 := (Tr.run ops0 _ (new_acc mb thr hmb)).1
  have e1 := Tr.run ops1 h0 a0
  have e2 := Tr.run ops2 h1 e1.1
  obtain ⟨o, ho⟩ := Option.isSome_iff_exists.1 hv
  rw [Heap.get_eq, cellIn_eq_some] at ho
  obtain ⟨s0, hs0, hg0, hv0⟩ := ho
  obtain ⟨s1, hs1, d1, hd1, hgen1, hl1⟩ := e1.2.slots _ _ hs0
  obtain ⟨s2, hs2, d2, hd2, hgen2, hl2⟩ := e2.2.slots _ _ hs1
  have hpos : d1 ≠ 0 := by
    intro h
    have hx := hl1 (by rw [hv0]; rfl) h
    obtain ⟨o1, ho1⟩ := Option.isSome_iff_exists.1 hx
    have : h1.get i = some o1 := by
      rw [Heap.get_eq, cellIn_eq_some]
      have hgl := gens_lt a0.ok hs0
      exact ⟨s1, hs1, by rw [hgen1, h, Nat.add_zero, Nat.mod_eq_of_lt hgl, hg0], ho1⟩
    rw [hd] at this; simp at this
  have hgl := gens_lt a0.ok hs0
  have r1 : h0.gcRuns ≤ h1.gcRuns := e1.2.runs
  have r2 : h1.gcRuns ≤ h2.gcRuns := e2.2.runs
  have hd1' : d1 ≤ h1.gcRuns - h0.gcRuns := hd1
  have hd2' : d2 ≤ h2.gcRuns - h1.gcRuns := hd2
  cases hx : h2.get i with
  | none => rfl
  | some o2 =>
    exfalso
    rw [Heap.get_eq, cellIn_eq_some] at hx
    obtain ⟨s2', hs2', hg2', _⟩ := hx
    rw [hs2] at hs2'
    obtain rfl := Option.some.inj hs2'
    have : u32Mod = 2 ^ 32 := rfl
    rw [hgen2, hgen1, Nat.mod_add_mod, hg0] at hg2'
    have hdd : d1 + d2 < u32Mod := by omega
    rw [hg0] at hgl
    have : (i.gen + d1 + d2) % u32Mod = i.gen → False := by
      intro hh
      by_cases hc : i.gen + d1 + d2 < u32Mod
      · rw [Nat.mod_eq_of_lt hc] at hh; omega
      · rw [Nat.mod_eq_sub_mod (by omega), Nat.mod_eq_of_lt (by omega)] at hh; omega
    exact this hg2'

/-- A heap without roots: a collection sweeps everything. -/
theorem collect_no_roots (h : Heap) (hr : h.rootIds [] = []) :
    h.collect [] =
      let r := sweepLoop 0 h.slots h.marks h.usedBytes h.freeList
      { h with gcRuns := h.gcRuns + 1, slots := r.slots, marks := r.marks, usedBytes := r.used,
               freeList := r.free } := by
  have : h.mark [] = { marks := h.marks, work := [] } := by
    unfold Heap.mark
    rw [hr]
    simp [traceAll, markLoop]
  unfold Heap.collect
  rw [this]

/-- One string in slot 0 with generation `g`, no roots, after `n` collections. -/
def wrapHeap (g n : Nat) : Heap :=
  { maxBytes := 1000000, gcThreshold := 900000, usedBytes := 2, gcRuns := n,
    slots := [⟨g, some (.string [97]), none, 2⟩], marks := [0], freeList := [], nextSymbolId := 1,
    rootStack := [], envRootStack := [], persistentRoots := [], persistentRootsFree := [],
    symbolRegistry := [], caps := ⟨1, 1, 1, 1, 0, 0, 0, 0, 0⟩ }

theorem wrap_start : (Heap.new 1000000 900000).run [.allocString [97]] = wrapHeap 0 0 := by
  decide +kernel

theorem wrap_round (g n : Nat) :
    (wrapHeap g n).run [.collect [], .allocString [97]] = wrapHeap ((g + 1) % 2 ^ 32) (n + 1) := by
  simp only [Heap.run, List.foldl, Heap.step]
  rw [collect_no_roots _ (by simp [Heap.rootIds, wrapHeap])]
  simp [wrapHeap, sweepLoop, Heap.allocString, andThen, Heap.ensure, Heap.estimated,
    satAdd, satMul, usizeMax, szSlot, szU32, szId, szValue, szOptValue, szRegistryEntry,
    Heap.allocUnchecked, Heap.additionalAlloc, Heap.genAt, Heap.fillSlot, u32Mod]

/-- `n` rounds of collecting and allocating. -/
def wrapOps (n : Nat) : List Op := (List.replicate n [Op.collect [], Op.allocString [97]]).flatten

theorem wrap_rounds (n g k : Nat) (hg : g < 2 ^ 32) :
    (wrapHeap g k).run (wrapOps n) = wrapHeap ((g + n) % 2 ^ 32) (k + n) := by
  induction n generalizing g k with
  | zero => rw [Nat.add_zero, Nat.mod_eq_of_lt hg]; rfl
  | succ n ih =>
    have hs : wrapOps (n + 1) = [Op.collect [], Op.allocString [97]] ++ wrapOps n := by
      simp [wrapOps, List.replicate_succ]
    have : ∀ (h : Heap) (a b : List Op), h.run (a ++ b) = (h.run a).run b := by
      intro h a b; simp [Heap.run]
    rw [hs, this, wrap_round, ih _ _ (Nat.mod_lt _ (by decide)), Nat.mod_add_mod]
    congr 1 <;> omega

/-- A handle that dies: the slot is reused with a new generation, and the old handle stays invalid. -/
example :
    let h0 := (Heap.new 1000000 900000).run [.allocString [97]]
    let h2 := (h0.run [.collect []]).run [.allocString [97]]
    (h0.get ⟨0, 0⟩).isSome ∧ (h0.run [.collect []]).get ⟨0, 0⟩ = none ∧ h2.gcRuns - h0.gcRuns < 2 ^ 32 ∧
    h2.get ⟨0, 0⟩ = none ∧ h2.get ⟨0, 1⟩ = some (.string [97]) := by
  intro h0 h2
  have e0 : h0 = wrapHeap 0 0 := wrap_start
  have e2 : h2 = wrapHeap 1 1 := by
    show (h0.run [.collect []]).run [.allocString [97]] = _
    have := wrap_round 0 0
    rw [show [Op.collect [], Op.allocString [97]] = [Op.collect []] ++ [Op.allocString [97]] from rfl,
      show ∀ (h : Heap) (a b : List Op), h.run (a ++ b) = (h.run a).run b from
        fun h a b => by simp [Heap.run]] at this
    rw [e0, this]
  refine ⟨by decide +kernel, ?_, by rw [e0, e2]; decide, by rw [e2]; decide +kernel,
    by rw [e2]; decide +kernel⟩
  rw [e0]
  simp only [Heap.run, List.foldl, Heap.step]
  rw [collect_no_roots _ (by simp [Heap.rootIds, wrapHeap])]
  decide +kernel

/-- **C03** (the bound is needed) After 2^32 collections of the same slot a stale handle denotes a newer
cell: it is valid, dies at the first collection, and is valid again. -/
theorem C03_generation_wraps :
    let h0 := (Heap.new 1000000 900000).run [.allocString [97]]
    let h1 := h0.run [.collect []]
    (h0.get ⟨0, 0⟩).isSome ∧ h1.get ⟨0, 0⟩ = none ∧
    ((h0.run (wrapOps (2 ^ 32))).get ⟨0, 0⟩).isSome := by
  intro h0 h1
  have e0 : h0 = wrapHeap 0 0 := wrap_start
  refine ⟨by decide +kernel, ?_, ?_⟩
  · show (h0.run [.collect []]).get _ = none
    rw [e0]
    simp only [Heap.run, List.foldl, Heap.step]
    rw [collect_no_roots _ (by simp [Heap.rootIds, wrapHeap])]
    decide +kernel
  · rw [e0, wrap_rounds _ _ _ (by decide)]
    decide +kernel

/-! ## C04 -/

/-- **C04** After any sequence of API calls the byte counter is exactly the total recorded size of the
allocated cells, and the estimated footprint is within the configured limit. -/
theorem C04_accounting_and_limit (mb thr : Nat) (hmb : LimitOk mb) (ops : List Op) :
    let h := (Heap.new mb thr).run ops
    h.usedBytes = h.liveBytes ∧ h.estimated ≤ mb := by
  intro h
  have a := (Tr.run ops _ (new_acc mb thr hmb)).1
  refine ⟨a.ok.used, ?_⟩
  have h1 := a.lim
  have h2 : h.maxBytes = mb := run_max ops _ (new_acc mb thr hmb)
  have h3 : h.estimated = min usizeMax h.rawEst := Heap.estimated_eq h
  rw [h3, ← h2]
  exact Nat.le_trans (Nat.min_le_right _ _) h1

example : ((Heap.new 1000000 900000).run demoOps).usedBytes = 92 := by decide +kernel

/-- A limit that is hit: the second string does not fit and the call is refused. -/
example : (((Heap.new 400 1000).run [.allocString [97]]).allocString (List.replicate 100 97)).1.toOption =
    none := by decide +kernel

/-- **C04** (frame) An allocation call, whether it succeeds or is refused, leaves every reachable cell
exactly as it was. -/
theorem C04_allocation_keeps_cells (mb thr : Nat) (hmb : LimitOk mb) (ops : List Op)
    (hl : (Heap.new mb thr).Legal ops) (i : HeapId) :
    let h := (Heap.new mb thr).run ops
    h.Reachable [] i →
    (∀ u, (h.allocString u).2.get i = h.get i) ∧
    (∀ d, (∀ k, d = some k → (h.get k).isSome) → (h.newSymbol d).2.get i = h.get i) ∧
    (∀ p ps, (∀ k, (HeapObject.object ⟨p, true, ps, none⟩).Contains k → (h.get k).isSome) →
      (h.allocObject p ps).2.get i = h.get i) ∧
    (∀ o b, (∀ k, o.Contains k → h.Reachable [] k) → (h.allocUnchecked o b).2.get i = h.get i) := by
  intro h hr
  have n0 := new_inv mb thr hmb
  have v : h.Inv := (run_inv ops _ hl n0.1 n0.2).1
  refine ⟨?_, ?_, ?_, ?_⟩
  · intro u
    refine andThen_inv (P := fun x => x.get i = h.get i) ((Keep.ensure v _ _).get i hr) fun _ _ => ?_
    have k := Keep.ensure v (fun _ => satMul u.length 2) []
    exact ((alloc_inv k.inv _ _ (fun j hj => by cases hj)).2.1 i (k.reach i hr)).2.trans (k.get i hr)
  · intro d hd
    exact (newSymbol_post v d hd).1.get i hr
  · intro p ps hps
    have hvs : ∀ w ∈ objectRoots p ps, ∀ j, w.Is j → (h.get j).isSome :=
      fun w hw j hj => hps j (objectRoots_refs.1 ⟨w, hw, hj⟩)
    have hpush := (pushRoots_inv v _ hvs).2.2.1
    have k1 := Keep.push v _ hvs
    show (andThen _ _).2.get i = _
    generalize h.pushRoots (objectRoots p ps) [] = r1 at hpush k1
    refine andThen_inv (P := fun x => x.get i = h.get i) (k1.get i hr) fun u hu => ?_
    have k2 := Keep.ensure k1.inv (fun _ => satMul ps.length szPropertyEntry) []
    refine andThen_inv (P := fun x => x.get i = h.get i) ((k1.trans k2).get i hr) fun u' _ => ?_
    refine ((alloc_inv k2.inv _ _ ?_).2.1 i ((k1.trans k2).reach i hr)).2.trans ((k1.trans k2).get i hr)
    intro j hj
    obtain ⟨w, hw, hi⟩ := objectRoots_refs.2 hj
    exact k2.reach j (hpush u hu w hw j hi).1
  · intro o b ho
    exact ((alloc_inv v o b ho).2.1 i hr).2

example : (demoHeap.allocString [99]).2.get ⟨2, 0⟩ = some demoObj :=
  ((C04_allocation_keeps_cells 1000000 900000 (by decide) demoOps demo_legal _ demo_reach2).1 [99]).trans
    demo_get2

/-! ## C05 -/

/-- The finite map a user of persistent roots sees, before and after a call. -/
inductive RootMapStep (m m' : Nat → Option Value) (h : Heap) : Op → Prop
  /-- `add_root` stores the value under an id that was not in use, and returns that id. -/
  | added (v : Value) (id : Nat) (hres : (h.addRoot v).1 = .ok id) (hfresh : m id = none)
      (hm : ∀ j, m' j = if j = id then some v else m j) : RootMapStep m m' h (.addRoot v)
  /-- `add_root` may be refused; then nothing changes. -/
  | refused (v : Value) (e : VmError) (hres : (h.addRoot v).1 = .error e) (hm : ∀ j, m' j = m j) :
      RootMapStep m m' h (.addRoot v)
  /-- `set_root` replaces the value of an id in use and ignores other ids. -/
  | set (id : Nat) (v : Value)
      (hm : ∀ j, m' j = if j = id ∧ (m id).isSome then some v else m j) :
      RootMapStep m m' h (.setRoot id v)
  /-- `remove_root` makes the id unused. -/
  | removed (id : Nat) (hm : ∀ j, m' j = if j = id then none else m j) :
      RootMapStep m m' h (.removeRoot id)
  /-- Nothing else, in particular no collection, changes the map. -/
  | other (op : Op) (h1 : ∀ v, op ≠ .addRoot v) (h2 : ∀ i v, op ≠ .setRoot i v)
      (h3 : ∀ i, op ≠ .removeRoot i) (hm : ∀ j, m' j = m j) : RootMapStep m m' h op

/-- **C05** After every history, every call changes what `get_root` returns exactly as the finite map
specification says. -/
theorem C05_persistent_roots_are_a_map (mb thr : Nat) (hmb : LimitOk mb) (ops : List Op) (op : Op) :
    let h := (Heap.new mb thr).run ops
    RootMapStep h.getRoot (h.step op).getRoot h op := by
  intro h
  have a : h.Acc := (Tr.run ops _ (new_acc mb thr hmb)).1
  have r : RootsOk h := run_rootsOk ops _ (new_acc mb thr hmb) (new_rootsOk mb thr)
  by_cases h1 : ∃ v, op = .addRoot v
  · obtain ⟨v, rfl⟩ := h1
    obtain ⟨_, s1, s2⟩ := addRoot_spec h a r v
    cases hres : (h.addRoot v).1 with
    | error e => exact .refused v e hres (s1 e hres)
    | ok id => exact .added v id hres (s2 id hres).1 (s2 id hres).2
  · by_cases h2 : ∃ i v, op = .setRoot i v
    · obtain ⟨i, v, rfl⟩ := h2; exact .set i v (setRoot_spec h r i v).2
    · by_cases h3 : ∃ i, op = .removeRoot i
      · obtain ⟨i, rfl⟩ := h3; exact .removed i (removeRoot_spec h r i).2
      · have := step_persistent h op a (fun v hv => h1 ⟨v, hv⟩) (fun i v hv => h2 ⟨i, v, hv⟩)
          (fun i hv => h3 ⟨i, hv⟩)
        exact .other op (fun v hv => h1 ⟨v, hv⟩) (fun i v hv => h2 ⟨i, v, hv⟩)
          (fun i hv => h3 ⟨i, hv⟩) (getRoot_congr this.1)

/-- Two roots, one of them replaced and removed; the freed id is handed out again. -/
example :
    let h := (Heap.new 1000000 900000).run
      [.addRoot .null, .addRoot (.bool true), .setRoot 0 (.bool false), .removeRoot 0]
    h.getRoot 0 = none ∧ h.getRoot 1 = some (.bool true) ∧ (h.addRoot .undefined).1 = .ok 0 := by
  refine ⟨by decide +kernel, by decide +kernel, ?_⟩
  have : ((Heap.new 1000000 900000).run
      [.addRoot .null, .addRoot (.bool true), .setRoot 0 (.bool false),
        .removeRoot 0]).persistentRootsFree = [0] := by decide +kernel
  simp only [Heap.addRoot, this]

/-- A value stored as a persistent root stays valid until it is removed or replaced: every root is
live after every legal history. -/
theorem C05_persistent_roots_are_live (mb thr : Nat) (hmb : LimitOk mb) (ops : List Op)
    (hl : (Heap.new mb thr).Legal ops) (id : Nat) (v : Value) (i : HeapId)
    (hv : ((Heap.new mb thr).run ops).getRoot id = some v) (hi : v.Is i) :
    (((Heap.new mb thr).run ops).get i).isSome := by
  have n0 := new_inv mb thr hmb
  have c := (run_inv ops _ hl n0.1 n0.2).1.closed
  refine c.roots i (.persistent v ?_ hi)
  unfold Heap.getRoot at hv
  cases hx : ((Heap.new mb thr).run ops).persistentRoots[id]? with
  | none => simp [hx] at hv
  | some o =>
    simp [hx] at hv
    subst hv
    exact List.mem_of_getElem? hx

/-! ## C06 -/

theorem exec_prefix (p : Prog) (hs : p.Scoped) (h : Heap) (a : h.Acc) :
    (p.exec h).2.Acc ∧ (p.exec h).2.Prefix h.rootStack h.envRootStack := by
  induction p generalizing h with
  | skip => exact ⟨a, List.prefix_rfl, List.prefix_rfl⟩
  | fail => exact ⟨a, List.prefix_rfl, List.prefix_rfl⟩
  | call op => exact ⟨(Tr.step h op a).1, step_prefix h op hs a⟩
  | seq p q ihp ihq =>
    obtain ⟨a1, p1⟩ := ihp hs.1 h a
    simp only [Prog.exec]
    split
    · obtain ⟨a2, p2⟩ := ihq hs.2 _ a1
      exact ⟨a2, p1.1.trans p2.1, p1.2.trans p2.2⟩
    · exact ⟨a1, p1⟩
  | scope p ih =>
    obtain ⟨a1, p1⟩ := ih hs h a
    refine ⟨(Tr.truncate _ _ _ a1).1, ?_, ?_⟩
    · show h.rootStack <+: (p.exec h).2.rootStack.take h.rootStack.length
      rw [prefix_take p1.1]; exact List.prefix_rfl
    · show h.envRootStack <+: (p.exec h).2.envRootStack.take h.envRootStack.length
      rw [prefix_take p1.2]; exact List.prefix_rfl

/-- **C06** Whatever runs inside a scope, including calls that fail, early returns and nested scopes, once
it has ended both stacks of temporary roots are exactly what they were when it was created. -/
theorem C06_scope_restores_roots (mb thr : Nat) (hmb : LimitOk mb) (ops : List Op) (p : Prog)
    (hs : p.Scoped) :
    let h := (Heap.new mb thr).run ops
    ((Prog.scope p).exec h).2.rootStack = h.rootStack ∧
    ((Prog.scope p).exec h).2.envRootStack = h.envRootStack := by
  intro h
  have a : h.Acc := (Tr.run ops _ (new_acc mb thr hmb)).1
  obtain ⟨_, p1⟩ := exec_prefix p hs h a
  exact ⟨prefix_take p1.1, prefix_take p1.2⟩

example : (Prog.scope (.seq (.call (.pushRoots [.null, .undefined]))
    (.seq (.scope (.seq (.call (.pushRoots [.null])) .fail)) (.call (.collect []))))).Scoped := by
  simp [Prog.Scoped]

theorem exec_inv (p : Prog) (h : Heap) (hl : p.Legal h) (v : h.Inv) (r : RegOk h) :
    (p.exec h).2.Inv ∧ RegOk (p.exec h).2 := by
  induction p generalizing h with
  | skip => exact ⟨v, r⟩
  | fail => exact ⟨v, r⟩
  | call op => exact step_inv h op hl v r
  | seq p q ihp ihq =>
    obtain ⟨a1, p1⟩ := ihp h hl.1 v r
    simp only [Prog.exec]
    split
    · rename_i hh; exact ihq _ (hl.2 hh) a1 p1
    · exact ⟨a1, p1⟩
  | scope p ih =>
    obtain ⟨a1, p1⟩ := ih h hl v r
    exact ⟨truncate_inv a1 _ _, p1.truncate _ _⟩

/-- **C06** (protection) A value pushed as a temporary root is still on the stack and still valid after
anything legal that runs while the scope is open. -/
theorem C06_pushed_values_survive (mb thr : Nat) (hmb : LimitOk mb) (ops : List Op)
    (hl : (Heap.new mb thr).Legal ops) (vs : List Value) (h1 : Heap) (p : Prog) (hs : p.Scoped) :
    let h := (Heap.new mb thr).run ops
    (Op.pushRoots vs).Pre h → h.pushRoots vs [] = (.ok (), h1) → p.Legal h1 →
    ∀ v ∈ vs, v ∈ (p.exec h1).2.rootStack ∧ ∀ i, v.Is i → ((p.exec h1).2.get i).isSome := by
  intro h hpre hp hpl v hv
  have n0 := new_inv mb thr hmb
  obtain ⟨iv, rg⟩ := run_inv ops _ hl n0.1 n0.2
  have st := step_inv h (.pushRoots vs) hpre iv rg
  have hh1 : h.step (.pushRoots vs) = h1 := by
    show (h.pushRoots vs []).2 = h1
    rw [hp]
  rw [hh1] at st
  have hmem : v ∈ h1.rootStack := by
    obtain ⟨hx, hg, ⟨e, he⟩ | ⟨c, he⟩⟩ := (pushRoots_cases h vs [] iv.acc).1
    · rw [he] at hp; simp at hp
    · rw [he] at hp
      have := (Prod.mk.inj hp).2
      rw [← this]
      exact List.mem_append_right _ hv
  have hx := exec_inv p h1 hpl st.1 st.2
  have hpre := (exec_prefix p hs h1 st.1.acc).2.1
  have hm2 := hpre.subset hmem
  exact ⟨hm2, fun i hi => hx.1.closed.roots i (.stack v hm2 hi)⟩

example : (Op.pushRoots [.object ⟨2, 0⟩]).Pre demoHeap ∧
    (demoHeap.pushRoots [.object ⟨2, 0⟩] []).1.toOption = some () := by
  refine ⟨?_, by decide +kernel⟩
  intro v hv i hi
  rw [List.mem_singleton] at hv
  subst hv; cases hi
  decide +kernel

/-! ## C07 -/

/-- **C07** Two `symbol_for` calls at any two points of a legal history (with any calls, including
collections, in between) return the same symbol exactly if their keys have the same text. -/
theorem C07_symbol_for_stable_and_injective (mb thr : Nat) (hmb : LimitOk mb) (ops0 ops1 : List Op)
    (k1 k2 s1 s2 : HeapId) (h1 h3 : Heap) (u1 u2 : List Nat) :
    let h0 := (Heap.new mb thr).run ops0
    let h2 := h1.run ops1
    (Heap.new mb thr).Legal ops0 → h1.Legal ops1 →
    h0.symbolFor k1 = (.ok s1, h1) → h2.symbolFor k2 = (.ok s2, h3) →
    h0.get k1 = some (.string u1) → h2.get k2 = some (.string u2) →
    (s1 = s2 ↔ u1 = u2) := by
  intro h0 h2 hl0 hl1 he1 he2 hu1 hu2
  have n0 := new_inv mb thr hmb
  obtain ⟨v0, r0⟩ := run_inv ops0 _ hl0 n0.1 n0.2
  obtain ⟨v1, r1, p1⟩ := symbolFor_post v0 r0 k1
  rw [he1] at v1 r1 p1
  obtain ⟨u1', e1, hk1, hm1, hg1⟩ := p1 s1 rfl
  rw [hu1] at hk1
  obtain ⟨rfl⟩ := HeapObject.string.inj (Option.some.inj hk1)
  obtain ⟨v2, r2⟩ := run_inv ops1 h1 hl1 v1 r1
  have ev2 := (Tr.run ops1 h1 v1.acc).2
  obtain ⟨v3, r3, p3⟩ := symbolFor_post v2 r2 k2
  have ev3 := (Tr.symbolFor h2 k2 v2.acc).2
  rw [he2] at v3 r3 p3 ev3
  obtain ⟨u2', e2, hk2, hm3, hg3⟩ := p3 s2 rfl
  rw [hu2] at hk2
  obtain ⟨rfl⟩ := HeapObject.string.inj (Option.some.inj hk2)
  have hm13 : (e1, s1) ∈ h3.symbolRegistry := ev3.reg _ (ev2.reg _ hm1)
  have hg13 : h3.get e1 = some (.string u1) :=
    ev3.frozen _ (ev2.reg _ hm1) e1 _ (.inl rfl)
      (ev2.frozen _ hm1 e1 _ (.inl rfl) hg1 (by simp [HeapObject.tag])) (by simp [HeapObject.tag])
  obtain ⟨i, hi, hei⟩ := List.mem_iff_getElem.1 hm13
  obtain ⟨j, hj, hej⟩ := List.mem_iff_getElem.1 hm3
  constructor
  · intro hs
    have hnd := r3.nodup
    have hij : i = j := by
      refine (List.getElem_inj (h₀ := by simpa using hi) (h₁ := by simpa using hj) hnd).1 ?_
      simp [hei, hej, hs]
    subst hij
    rw [hei] at hej
    obtain ⟨rfl, _⟩ := Prod.mk.inj hej
    rw [hg13] at hg3
    exact HeapObject.string.inj (Option.some.inj hg3)
  · rintro rfl
    have hso := List.pairwise_iff_getElem.1 r3.sorted
    rcases Nat.lt_trichotomy i j with hlt | heq | hgt
    · have := hso i j hi hj hlt u1 u1 (by rw [hei]; exact getString_of_get hg13)
        (by rw [hej]; exact getString_of_get hg3)
      rw [cmpUnits_refl] at this; simp at this
    · subst heq
      rw [hei] at hej
      exact (Prod.mk.inj hej).2
    · have := hso j i hj hi hgt u1 u1 (by rw [hej]; exact getString_of_get hg3)
        (by rw [hei]; exact getString_of_get hg13)
      rw [cmpUnits_refl] at this; simp at this

/-- Three calls, two with the same key text under different string handles. -/
example :
    let h := (Heap.new 1000000 900000).run
      [.allocString [97], .allocString [98], .allocString [97], .pushRoots
        [.string ⟨0, 0⟩, .string ⟨1, 0⟩, .string ⟨2, 0⟩], .symbolFor ⟨0, 0⟩, .symbolFor ⟨1, 0⟩]
    (h.symbolFor ⟨0, 0⟩).1.toOption = some ⟨3, 0⟩ ∧ (h.symbolFor ⟨1, 0⟩).1.toOption = some ⟨4, 0⟩ ∧
    (h.symbolFor ⟨2, 0⟩).1.toOption = some ⟨3, 0⟩ := by decide +kernel

/-! ## C08 -/

/-- **C08** After every legal history every prototype chain ends. -/
theorem C08_prototype_chains_end (mb thr : Nat) (hmb : LimitOk mb) (ops : List Op)
    (hl : (Heap.new mb thr).Legal ops) (i : HeapId) : ((Heap.new mb thr).run ops).ProtoEnds i := by
  have n0 := new_inv mb thr hmb
  exact (run_inv ops _ hl n0.1 n0.2).1.proto i

example : ((Heap.new 1000000 900000).run demoOps).ProtoEnds ⟨2, 0⟩ :=
  C08_prototype_chains_end _ _ (by decide) demoOps demo_legal _

/-- **C08** In any heap, an assignment that would put an object on its own prototype chain is refused
and changes nothing. -/
theorem C08_cycle_is_refused (h : Heap) (obj p : HeapId) (hc : h.OnChain p obj) :
    ∃ e, h.setPrototype obj (some p) = (.error e, h) := by
  rcases setPrototype_cases h obj (some p) with ⟨e, he⟩ | ⟨b, hb, hne, hw, he⟩
  · exact ⟨e, he⟩
  · exfalso
    have : ∀ q o, h.OnChain q o → ∀ st vis, h.protoWalk o st vis (some q) = .ok () → False := by
      intro q o hq
      induction hq with
      | self i => intro st vis hw; exact (protoWalk_ok hw i rfl).1 rfl
      | next hb hp hq ih =>
        intro st vis hw
        obtain ⟨_, _, hn⟩ := protoWalk_ok hw _ rfl
        obtain ⟨st', vis', hw'⟩ := hn _ (protoOf_iff.2 ⟨_, hb, hp⟩)
        exact ih st' vis' hw'
    exact this p obj hc 0 [] hw

/-- Making the second object the prototype of the first would close a cycle. -/
example : ∃ e, demoHeap.setPrototype ⟨1, 0⟩ (some ⟨2, 0⟩) = (.error e, demoHeap) :=
  C08_cycle_is_refused _ _ _ (.next (b := ⟨some ⟨1, 0⟩, true,
    [⟨.string ⟨0, 0⟩, true, true, .data (.object ⟨1, 0⟩) true⟩], none⟩) (by decide +kernel) rfl (.self _))

/-- A harmless assignment is accepted. -/
example : (demoHeap.setPrototype ⟨2, 0⟩ none).1.toOption = some () := by decide +kernel

/-! ## C49 -/

/-- **C49** After every legal history no allocated cell and no root holds an invalid handle. -/
theorem C49_no_dangling_handles (mb thr : Nat) (hmb : LimitOk mb) (ops : List Op)
    (hl : (Heap.new mb thr).Legal ops) :
    (∀ i o j, ((Heap.new mb thr).run ops).get i = some o → o.Contains j →
      (((Heap.new mb thr).run ops).get j).isSome) ∧
    (∀ i, ((Heap.new mb thr).run ops).IsRoot [] i → (((Heap.new mb thr).run ops).get i).isSome) := by
  have n0 := new_inv mb thr hmb
  have c := (run_inv ops _ hl n0.1 n0.2).1.closed
  exact ⟨c.cells, c.roots⟩

example : (demoHeap.get ⟨0, 0⟩).isSome :=
  (C49_no_dangling_handles _ _ (by decide) demoOps demo_legal).1 ⟨2, 0⟩ demoObj ⟨0, 0⟩ demo_get2
    (HeapObject.mem_refs.1 (by decide +kernel))

end Verif.Heap
