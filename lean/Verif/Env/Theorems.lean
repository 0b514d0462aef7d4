import Verif.Env.Lemmas
/-!
# C14: lexical bindings

Every theorem ranges over all records `alloc_declarative_env_record` can build and all sequences of
operations, through the name-based and the symbol-based API in any mixture.
-/

namespace Verif.Env

variable {V : Type}

/-- A record can be built exactly when the symbols of its bindings are distinct (and memory allows),
and then it contains exactly the bindings given. -/
theorem C14_alloc (bs : List (Binding V)) (oom : Bool) :
    (allocRecord bs oom = .error .outOfMemory ↔ oom = true) ∧
    (allocRecord bs oom = .error .duplicate ↔ oom = false ∧ ¬ (bs.map (·.symbol)).Nodup) ∧
    (∀ t, allocRecord bs oom = .ok t →
      (∀ b ∈ bs, t.store b.symbol = some b.cell) ∧
      (∀ s, s ∉ bs.map (·.symbol) → t.store s = none)) := by
  have hd := noAdjacent_iff_nodup bs
  refine ⟨?_, ?_, ?_⟩
  · unfold allocRecord
    cases oom with
    | true => simp
    | false => cases hasAdjacentDuplicate (sortTable bs) <;> simp
  · rw [← hd]
    unfold allocRecord
    cases oom with
    | true => simp
    | false => cases hasAdjacentDuplicate (sortTable bs) <;> simp
  · intro t ht
    obtain ⟨_, rfl, hno⟩ := allocRecord_ok ht
    have hs := sorted_sortTable hno
    constructor
    · intro b hb
      obtain ⟨i, hi⟩ := List.mem_iff_getElem?.1 ((mem_sortTable b bs).2 hb)
      exact store_of_get hs hi
    · intro s hs'
      refine store_none ?_
      intro i b hb hbs
      exact hs' (List.mem_map.2 ⟨b, (mem_sortTable b bs).1 (List.mem_of_getElem? hb), hbs⟩)

/-- Every sequence of operations on a reachable record answers exactly as the specification. -/
theorem C14_bindings (undef : V) (t : Table V) (ht : Reachable undef t) (ops : List (Op V)) :
    StepsList t.store ops (run undef t ops).1 (Table.store (run undef t ops).2) :=
  (run_refines undef ops ht.sorted).2

/-- Temporal dead zone: as long as nobody has initialised a binding, every read and every assignment
of it, by whatever name or symbol designates it, throws, and so it stays uninitialised. -/
theorem C14_tdz (undef : V) (t : Table V) (ht : Reachable undef t) (s : Nat) (c : Cell V)
    (hc : t.store s = some c) (hv : c.value = none) (ops : List (Op V))
    (hn : NoInit undef s t ops) (k : Target)
    (hk : Designates (Table.store (run undef t ops).2) k s) (v : V) :
    get (run undef t ops).2 k = .tdz ∧
    (setMutable (run undef t ops).2 k v) = (.tdz, (run undef t ops).2) := by
  have hsorted := (run_refines undef ops ht.sorted).1
  have hc' := run_tdz undef hv ops ht.sorted hc hn
  have hg := (step_refines undef hsorted (.get k)).2.get_iff hk hc'
  have hset := (step_refines undef hsorted (.set k v)).2.set_iff hk hc'
  rw [hv] at hg hset
  refine ⟨hg, ?_⟩
  simp only [step] at hset
  have : (setMutable (run undef t ops).2 k v).2 = (run undef t ops).2 := by
    revert hset
    unfold setMutable
    cases k.index (run undef t ops).2 with
    | none => simp
    | some i =>
      simp only
      cases (run undef t ops).2[i]? with
      | none => simp
      | some b =>
        simp only
        cases b.initialized <;> cases b.mutable <;> simp
  exact Prod.ext hset this

/-- Initialisation happens at most once: after it succeeded, every later initialisation of the same
binding is refused and changes nothing. -/
theorem C14_initialise_once (undef : V) (t : Table V) (ht : Reachable undef t) (k : Target) (v : V)
    (hok : (initBinding t k v).1 = .done) (ops : List (Op V)) (s : Nat)
    (hk : Designates t.store k s) (k' : Target) (w : V)
    (hk' : Designates (Table.store (run undef (initBinding t k v).2 ops).2) k' s) :
    initBinding (run undef (initBinding t k v).2 ops).2 k' w =
      (.alreadyInitialized, (run undef (initBinding t k v).2 ops).2) := by
  have h0 := step_refines undef ht.sorted (.init k v)
  simp only [step] at h0
  have h0' := h0.2
  rw [hok] at h0'
  obtain ⟨s', c, hd, hc, hv⟩ := h0'.done_write (.inl rfl)
  cases hk.unique hd
  have hsorted := (run_refines undef ops h0.1).1
  obtain ⟨c', hc', hv'⟩ := run_initialised undef ops h0.1 hc (by rw [hv]; rfl)
  have hi := (step_refines undef hsorted (.init k' w)).2.init_iff hk' hc'
  obtain ⟨x, hx⟩ := Option.isSome_iff_exists.1 hv'
  rw [hx] at hi
  simp only [step] at hi
  refine Prod.ext hi ?_
  revert hi
  unfold initBinding
  generalize (run undef _ ops).2 = t'
  cases k'.index t' with
  | none => simp
  | some i =>
    simp only
    cases t'[i]? with
    | none => simp
    | some b =>
      simp only
      cases b.initialized <;> simp

/-- Reads return the last value written: after a successful initialisation or assignment of `v`, and
until the next successful write of the same binding, every read of it returns `v`, whatever else
happens to the record. -/
theorem C14_last_write (undef : V) (t : Table V) (ht : Reachable undef t) (k : Target) (v : V)
    (op : Op V) (hop : op = .init k v ∨ op = .set k v) (hok : (step undef t op).1 = .done)
    (s : Nat) (hk : Designates t.store k s) (ops : List (Op V))
    (hn : NoWrite undef s (step undef t op).2 ops) (k' : Target)
    (hk' : Designates (Table.store (run undef (step undef t op).2 ops).2) k' s) :
    get (run undef (step undef t op).2 ops).2 k' = .value v := by
  have h0 := step_refines undef ht.sorted op
  have h0' := h0.2
  rw [hok] at h0'
  obtain ⟨s', c, hd, hc, hv⟩ := h0'.done_write hop
  cases hk.unique hd
  have hsorted := (run_refines undef ops h0.1).1
  have hc' := run_value undef ops h0.1 hc hn
  have hg := (step_refines undef hsorted (.get k')).2.get_iff hk' hc'
  rw [hv] at hg
  exact hg

/-- Constants: once a constant binding holds `v`, every read of it returns `v` and every assignment to
it fails and changes nothing, for ever. -/
theorem C14_const (undef : V) (t : Table V) (ht : Reachable undef t) (s : Nat) (c : Cell V) (v : V)
    (hc : t.store s = some c) (hv : c.value = some v) (hm : c.mutable = false)
    (ops : List (Op V)) (k : Target)
    (hk : Designates (Table.store (run undef t ops).2) k s) (w : V) :
    get (run undef t ops).2 k = .value v ∧
    setMutable (run undef t ops).2 k w = (.constAssign, (run undef t ops).2) := by
  have hsorted := (run_refines undef ops ht.sorted).1
  have hc' := run_const undef hv hm ops ht.sorted hc
  have hg := (step_refines undef hsorted (.get k)).2.get_iff hk hc'
  have hset := (step_refines undef hsorted (.set k w)).2.set_iff hk hc'
  rw [hv] at hg hset
  refine ⟨hg, ?_⟩
  simp only [step, hm] at hset
  refine Prod.ext hset ?_
  revert hset
  unfold setMutable
  generalize (run undef t ops).2 = t'
  cases k.index t' with
  | none => simp
  | some i =>
    simp only
    cases t'[i]? with
    | none => simp
    | some b =>
      simp only
      cases b.initialized <;> cases b.mutable <;> simp

/-- A binding never disappears and never changes its name, its mutability or what designates it. -/
theorem C14_stable (undef : V) (t : Table V) (ht : Reachable undef t) (s : Nat) (k : Target)
    (hk : Designates t.store k s) (ops : List (Op V)) :
    Designates (Table.store (run undef t ops).2) k s ∧
    ∃ c c', t.store s = some c ∧ Table.store (run undef t ops).2 s = some c' ∧
      c'.name = c.name ∧ c'.mutable = c.mutable := by
  refine ⟨run_designates undef ops ht.sorted hk, ?_⟩
  obtain ⟨c, hc⟩ := hk.exists_cell
  have key : ∀ (ops : List (Op V)) {t : Table V}, Sorted t → ∀ c, t.store s = some c →
      ∃ c', Table.store (run undef t ops).2 s = some c' ∧ c'.name = c.name ∧
        c'.mutable = c.mutable := by
    intro ops
    induction ops with
    | nil => intro t _ c hc; exact ⟨c, hc, rfl, rfl⟩
    | cons op ops ih =>
      intro t hs c hc
      obtain ⟨h1, h2⟩ := step_refines undef hs op
      obtain ⟨c1, hc1, hn1, hm1⟩ := h2.keeps hc
      obtain ⟨c2, hc2, hn2, hm2⟩ := ih h1 c1 hc1
      exact ⟨c2, hc2, hn2.trans hn1, hm2.trans hm1⟩
  obtain ⟨c', h⟩ := key ops ht.sorted c hc
  exact ⟨c, c', hc, h⟩

/-! ## The hypotheses are met -/

/-- A record with a constant and a variable, both in the dead zone, listed out of order. -/
def demoBindings : List (Binding Nat) :=
  [{ symbol := 9, name := some [120], value := 0, mutable := true, initialized := false },
   { symbol := 4, name := some [99], value := 0, mutable := false, initialized := false }]

def demoTable : Table Nat := sortTable demoBindings

theorem demo_reachable : Reachable 0 demoTable := .alloc (bs := demoBindings) rfl

example : (run 0 demoTable
    [.get (.name [99]), .set (.symbol 4) 7, .init (.name [99]) 5, .get (.symbol 4),
     .set (.name [99]) 6, .init (.symbol 4) 8, .get (.name [99]), .create [100] true 6 false,
     .get (.name [100]), .init (.symbol 6) 1, .set (.name [100]) 2, .get (.symbol 6),
     .create [100] true 7 false, .create [101] false 9 false, .create [101] false 2 true,
     .create [101] false 2 false, .has (.name [101]), .get (.name [102])]).1 =
    [.tdz, .tdz, .done, .value 5, .constAssign, .alreadyInitialized, .value 5, .done,
     .tdz, .done, .done, .value 2, .duplicate, .duplicate, .outOfMemory, .done, .bool true,
     .unbound] := by decide +kernel

/-- The cell of the constant is in its dead zone at the start (`C14_tdz`). -/
example : ∃ c, demoTable.store 4 = some c ∧ c.value = none ∧
    NoInit 0 4 demoTable [.get (.name [99]), .create [100] true 6 false] ∧
    Designates (Table.store (run 0 demoTable
      [.get (.name [99]), .create [100] true 6 false]).2) (.symbol 4) 4 :=
  ⟨_, rfl, rfl, ⟨nofun, nofun, trivial⟩, rfl, rfl⟩

/-- Initialising succeeds (`C14_initialise_once`, `C14_last_write`). -/
example : (initBinding demoTable (.symbol 4) 5).1 = .done ∧
    Designates demoTable.store (.symbol 4) 4 ∧
    NoWrite 0 4 (step 0 demoTable (.init (.symbol 4) 5)).2 [.set (.symbol 4) 6] :=
  ⟨rfl, ⟨rfl, rfl⟩, ⟨fun _ _ _ => by decide +kernel, trivial⟩⟩

/-- After it the constant holds a value (`C14_const`). -/
example : ∃ c, Table.store (initBinding demoTable (.symbol 4) 5).2 4 = some c ∧
    c.value = some 5 ∧ c.mutable = false := ⟨_, rfl, rfl, rfl⟩

end Verif.Env
