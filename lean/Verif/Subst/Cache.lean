import Verif.Subst.Ends
/-!
# C103: the cache of instantiated signatures
-/

namespace Verif.Subst
open Verif.Types
open Verif.Types.Store
open Verif.Rename (mem_of_lookup)

/-! ## The code -/

/-- `instantiate.rs` 239–242: `InstantiationKey`. -/
abbrev Key := Nat × List Nat

/-- `instantiate.rs` 234–236: `InstantiationCache`. The shards are one list, newest first; what
`ShardedCache` evicts is in the specification below. -/
abbrev Cache := List (Key × Nat)

/-- `instantiate.rs` 277–285: the key. -/
def keyOf (st : Store) (σ : Nat → Option Nat) (i : Nat) (sig : Signature) : Key :=
  (i, sig.typeParams.map fun tp => (σ tp.id).getD st.prims.unknown)

/-- `instantiate.rs` 267–293: `InstantiationCache::instantiate_signature`. -/
def cached (H : Hashes) (n : Nat) (st : Store) (c : Cache) (i : Nat) (sig : Signature)
    (σ : Nat → Option Nat) : Option (Store × Cache × Nat) :=
  if sig.typeParams.isEmpty then some (st, c, i)
  else
    match c.lookup (keyOf st σ i sig) with
    | some hit => some (st, c, hit)
    | none =>
      match instantiate H σ n st sig with
      | none => none
      | some (s, j) => some (s.store, (keyOf st σ i sig, j) :: c, j)

/-! ## The specification -/

/-- The mapping gives a type of the store to each type parameter of the signature, and to no other. -/
structure Whole (st : Store) (σ : Nat → Option Nat) (sig : Signature) : Prop where
  known : ∀ q u, σ q = some u → (st.kind? u).isSome
  all : ∀ q, (σ q).isSome ↔ ∃ tp ∈ sig.typeParams, tp.id = q

/-- The stores and caches that calls of `instantiate_signature` with whole mappings lead to, with any
other operations on the store and any evictions in between. -/
inductive Cached (H : Hashes) : Store → Cache → Prop where
  | new {st : Store} : Reachable H st → Cached H st []
  | op {st st' : Store} {c : Cache} {o : Op} {i : Nat} : Cached H st c → o.Known st →
      o.run H st = some (st', i) → Cached H st' c
  | evict {st : Store} {c c' : Cache} : Cached H st c → (∀ e ∈ c', e ∈ c) → Cached H st c'
  | call {st st' : Store} {c c' : Cache} {n i j : Nat} {sig : Signature} {σ : Nat → Option Nat} :
      Cached H st c → st.sigs.lookup i = some sig → Whole st σ sig →
      cached H n st c i sig σ = some (st', c', j) → Cached H st' c'

/-! ## Proofs -/

variable {H : Hashes} {σ : Nat → Option Nat} {st st' : Store} {c c' : Cache}

/-- What holds of every entry. -/
def Entry (H : Hashes) (st : Store) (e : Key × Nat) : Prop :=
  ∃ σ sig, st.sigs.lookup e.1.1 = some sig ∧ Whole st σ sig ∧ e.1 = keyOf st σ e.1.1 sig ∧
    Inst H σ st (.sig e.1.1) e.2

theorem Entry.mono (hl : Later H st st') (hle : Le st st') {e : Key × Nat} (h : Entry H st e) :
    Entry H st' e := by
  obtain ⟨σ, sig, h1, h2, h3, h4⟩ := h
  refine ⟨σ, sig, hle.sigs _ _ h1, ⟨fun q u hq => hle.known (h2.known q u hq), h2.all⟩, ?_, h4.mono hl hle⟩
  rw [h3]
  unfold keyOf
  rw [hle.prims]

theorem getD_inj {a b : Option Nat} {d : Nat} (ha : a.isSome) (hb : b.isSome) (h : a.getD d = b.getD d) :
    a = b := by
  cases a <;> cases b <;> simp_all

/-- A whole mapping is determined by the key. -/
theorem whole_unique {τ : Nat → Option Nat} {sig : Signature} {i : Nat} (h1 : Whole st σ sig)
    (h2 : Whole st τ sig) (e : keyOf st σ i sig = keyOf st τ i sig) : σ = τ := by
  funext q
  by_cases hq : ∃ tp ∈ sig.typeParams, tp.id = q
  · obtain ⟨tp, ht, rfl⟩ := hq
    refine getD_inj ((h1.all _).2 ⟨tp, ht, rfl⟩) ((h2.all _).2 ⟨tp, ht, rfl⟩) (d := st.prims.unknown) ?_
    exact List.map_inj_left.1 (Prod.mk.inj e).2 tp ht
  · have a : σ q = none := by
      cases hs : σ q with
      | none => rfl
      | some u => exact absurd ((h1.all q).1 (by rw [hs]; rfl)) hq
    have b : τ q = none := by
      cases hs : τ q with
      | none => rfl
      | some u => exact absurd ((h2.all q).1 (by rw [hs]; rfl)) hq
    rw [a, b]

/-- A new substituter for a signature of the store returns an instance. -/
theorem instantiate_inst (h : Reachable H st) (hσ : ∀ q u, σ q = some u → (st.kind? u).isSome) {i n j : Nat}
    {sig : Signature} (hs : st.sigs.lookup i = some sig) {s : Sub}
    (hi : instantiate H σ n st sig = some (s, j)) :
    Inst H σ s.store (.sig i) j ∧ Later H st s.store := by
  have e : substSigId H σ (substType H σ n) (.fresh st) i =
      some ({ s with sigs := (i, j) :: s.sigs }, j) := by
    unfold instantiate at hi
    unfold substSigId
    show (match st.sigs.lookup i with | none => _ | some sig => _) = _
    rw [hs]
    simp only
    rw [hi]
  have x := C99_signature h hσ _ .fresh i (by show (st.sigs.lookup i).isSome; rw [hs]; rfl) n _ _ e
  exact x

theorem cached_step {n i j : Nat} {sig : Signature} (h : Reachable H st) (hc : ∀ e ∈ c, Entry H st e)
    (hs : st.sigs.lookup i = some sig) (hw : Whole st σ sig)
    (hr : cached H n st c i sig σ = some (st', c', j)) :
    Later H st st' ∧ (∀ e ∈ c', Entry H st' e) ∧
      (sig.typeParams = [] ∧ j = i ∨ Inst H σ st' (.sig i) j) := by
  unfold cached at hr
  split at hr
  · rename_i ht
    cases hr
    exact ⟨.refl, hc, .inl ⟨List.isEmpty_iff.1 ht, rfl⟩⟩
  · split at hr
    · rename_i hit e
      cases hr
      refine ⟨.refl, hc, .inr ?_⟩
      obtain ⟨τ, sig', h1, h2, h3, h4⟩ := hc _ (mem_of_lookup e)
      simp only at h1 h2 h3 h4
      have hk : (keyOf st σ i sig).1 = i := rfl
      rw [hk] at h1 h3 h4
      rw [hs] at h1
      cases h1
      rw [whole_unique hw h2 h3]
      exact h4
    · split at hr
      · cases hr
      · rename_i s u e
        cases hr
        obtain ⟨a, b⟩ := instantiate_inst h hw.known hs e
        have hle := (later_le (reachable_inv h) b).2
        refine ⟨b, fun x hx => ?_, .inr a⟩
        rcases List.mem_cons.1 hx with rfl | hx
        · refine ⟨σ, sig, hle.sigs _ _ hs, ⟨fun q u hq => hle.known (hw.known q u hq), hw.all⟩, ?_, a⟩
          show keyOf st σ i sig = keyOf s.store σ i sig
          unfold keyOf
          rw [hle.prims]
        · exact (hc x hx).mono b hle

theorem reachable_later (h : Reachable H st) (hl : Later H st st') : Reachable H st' := by
  induction hl with
  | refl => exact h
  | op _ hk hr ih => exact .op ih hk hr

theorem cached_ok (h : Cached H st c) : Reachable H st ∧ ∀ e ∈ c, Entry H st e := by
  induction h with
  | new h => exact ⟨h, fun e he => absurd he List.not_mem_nil⟩
  | op _ hk hr ih =>
    have hl : Later H _ _ := .op .refl hk hr
    have hle := (later_le (reachable_inv ih.1) hl).2
    exact ⟨.op ih.1 hk hr, fun e he => (ih.2 e he).mono hl hle⟩
  | evict _ hs ih => exact ⟨ih.1, fun e he => ih.2 e (hs e he)⟩
  | call _ hs hw hr ih =>
    obtain ⟨a, b, _⟩ := cached_step ih.1 ih.2 hs hw hr
    exact ⟨reachable_later ih.1 a, b⟩

/-- **C103.** Partial: for mappings that give a type to each type parameter of the signature and to no
other. Whatever is in the cache, the result is an instance of the signature under the mapping, and any
new substituter would return the same. The code does not check that mappings are whole, and the claim
fails for others: see `C103_violated`. -/
theorem C103_partial (h : Cached H st c) (n i j : Nat) (sig : Signature) (hs : st.sigs.lookup i = some sig)
    (hw : Whole st σ sig) (ht : sig.typeParams ≠ []) (hr : cached H n st c i sig σ = some (st', c', j)) :
    Inst H σ st' (.sig i) j ∧
    ∀ S m s v, Later H st' S → instantiate H σ m S sig = some (s, v) → v = j := by
  obtain ⟨a, b⟩ := cached_ok h
  obtain ⟨l, _, x⟩ := cached_step a b hs hw hr
  have x := x.resolve_left fun y => ht y.1
  refine ⟨x, fun S m s v hl hv => ?_⟩
  have hi := reachable_inv a
  have hlS := Verif.Widen.Later.trans l hl
  have hle := (later_le hi hlS).2
  obtain ⟨y, ly⟩ := instantiate_inst (reachable_later a hlS)
    (fun q u hq => hle.known (hw.known q u hq)) (hle.sigs _ _ hs) hv
  have hl' := Verif.Widen.Later.trans hl ly
  exact (Inst.fn (x.mono hl' (later_le (later_le hi l).1 hl').2) v y).symm

/-- Parameter 0 is mapped to `string`, parameter 1 to `number`. -/
def both : Nat → Option Nat := fun q => if q = 0 then some 8 else if q = 1 then some 7 else none

/-- The store and the cache after a call for signature 0. -/
def g8 : Store × Cache :=
  match cached hashes 30 g3 [] 0 sig0 both with
  | some (st, c, _) => (st, c)
  | none => (g3, [])

theorem whole_both {st : Store} (h : (st.kind? 8).isSome ∧ (st.kind? 7).isSome) : Whole st both sig0 := by
  refine ⟨fun q u hq => ?_, fun q => ?_⟩
  · unfold both at hq
    split at hq
    · cases hq; exact h.1
    · split at hq
      · cases hq; exact h.2
      · cases hq
  · unfold both sig0
    simp only [List.mem_cons, List.not_mem_nil, or_false, exists_eq_or_imp, exists_eq_left]
    by_cases h0 : q = 0
    · simp [h0]
    · by_cases h1 : q = 1
      · simp [h1]
      · simp [h0, h1]; omega

example : Cached hashes g8.1 g8.2 ∧ g8.2 = [((0, [8, 7]), 1)] ∧ Whole g8.1 both sig0 ∧
    g8.1.sigs.lookup 0 = some sig0 ∧ sig0.typeParams ≠ [] ∧
    (cached hashes 30 g8.1 g8.2 0 sig0 both).map (fun x => x.2.2) = some 1 := by
  refine ⟨?_, by decide +kernel, whole_both (by decide +kernel), by decide +kernel, by decide, by decide +kernel⟩
  unfold g8
  split
  · rename_i e
    exact .call (.new reach_g3) (by decide +kernel) (whole_both (by decide +kernel)) e
  · exact .new reach_g3

/-- No type parameter is mapped. -/
def nothing : Nat → Option Nat := fun _ => none

/-- Parameters 0 and 1 are mapped to `unknown`. -/
def unknowns : Nat → Option Nat := fun q => if q = 0 ∨ q = 1 then some 1 else none

theorem whole_unknowns {st : Store} (h : (st.kind? 1).isSome) : Whole st unknowns sig0 := by
  refine ⟨fun q u hq => ?_, fun q => ?_⟩
  · unfold unknowns at hq
    split at hq
    · cases hq; exact h
    · cases hq
  · unfold unknowns sig0
    simp only [List.mem_cons, List.not_mem_nil, or_false, exists_eq_or_imp, exists_eq_left]
    by_cases h0 : q = 0
    · simp [h0]
    · by_cases h1 : q = 1
      · simp [h1]
      · simp [h0, h1]; omega

instance : DecidableEq (Store × Cache × Nat) :=
  @instDecidableEqProd Store (Cache × Nat) (fun a b => instDecidableEqStore a b) inferInstance

/-- What an empty cache leads to. -/
def g9 : Store × Cache × Nat :=
  match cached hashes 30 g3 [] 0 sig0 unknowns with
  | some x => x
  | none => (g3, [], 0)

/-- **C103 fails** for mappings that leave a type parameter out: it is entered in the cache as if it
had been mapped to `unknown`. After a call for signature 0 with an empty mapping, the call with both
parameters mapped to `unknown` returns the generic signature; without the first call it returns
`(x: unknown[], y?: unknown) => unknown`. -/
theorem C103_violated : ∃ (st1 st2 st3 : Store) (c1 c2 c3 : Cache) (j k : Nat),
    Reachable hashes g3 ∧ g3.sigs.lookup 0 = some sig0 ∧
    cached hashes 30 g3 [] 0 sig0 nothing = some (st1, c1, 0) ∧
    Whole st1 unknowns sig0 ∧
    cached hashes 30 st1 c1 0 sig0 unknowns = some (st2, c2, j) ∧
    cached hashes 30 st1 [] 0 sig0 unknowns = some (st3, c3, k) ∧
    (st2.sig j).typeParams.length = 2 ∧ (st3.sig k).typeParams = [] ∧ (st3.sig k).ret = 1 := by
  refine ⟨g3, g3, g9.1, [((0, [1, 1]), 0)], [((0, [1, 1]), 0)], g9.2.1, 0, g9.2.2, reach_g3, ?_, ?_,
    whole_unknowns ?_, ?_, ?_, ?_, ?_, ?_⟩ <;> decide +kernel

end Verif.Subst
