import Verif.Types.InternLemmas
/-!
# C47: interning is injective and stable; C67 (first half): snapshots

`mk v salt` is the fingerprint of a value under a salt; it is arbitrary, so any collisions are allowed.
-/

namespace Verif.Types

section
variable {I V : Type} [BEq I] [LawfulBEq I] [DecidableEq V]

/-! ## Threads interning at the same time -/

/-- **C47.** Under every schedule of every number of threads, and for every fingerprint function: an
identifier that was returned denotes the value that was interned, and two calls got the same identifier
exactly if they interned the same value. -/
theorem C47_concurrent (mk : V → Nat → I) (es : List (Event V)) :
    (∀ c ∈ (Sys.run mk es).calls, ∀ i : I, c.answer = some i →
      (Sys.run mk es).map.lookup i = some c.value) ∧
    (∀ c ∈ (Sys.run mk es).calls, ∀ d ∈ (Sys.run mk es).calls, ∀ i j : I,
      c.answer = some i → d.answer = some j → (i = j ↔ c.value = d.value)) := by
  have h := run_ok (mk := mk) es
  refine ⟨fun c hc i hi => (h.answered c hc i hi).1, ?_⟩
  intro c hc d hd i j hi hj
  have h1 := (h.answered c hc i hi).1
  have h2 := (h.answered d hd j hj).1
  constructor
  · rintro rfl; rw [h1] at h2; exact Option.some.inj h2
  · intro e; rw [e] at h1; exact h.map.inj h1 h2

/-- **C47.** Whatever happens later, an identifier goes on denoting the same value, and an answered
call keeps its answer. -/
theorem C47_stable (mk : V → Nat → I) (es es' : List (Event V)) :
    (∀ (i : I) (v : V), (Sys.run mk es).map.lookup i = some v →
      (Sys.run mk (es ++ es')).map.lookup i = some v) ∧
    (∀ (k : Nat) (c : Call I V) (i : I), (Sys.run mk es).calls[k]? = some c → c.answer = some i →
      (Sys.run mk (es ++ es')).calls[k]? = some c) := by
  rw [run_append]
  exact (steps_ok es' _ (run_ok es)).2

/-- **C47.** Each turn a call gets either answers it or counts as one more retry; and if different
salts give different identifiers for its value, a call that is still open has made at most as many
retries as there are entries (of which there are fewer than salts). So every call that keeps getting
turns is answered, no matter what the other threads do. -/
theorem C47_progress (mk : V → Nat → I) (es : List (Event V)) (k : Nat) (c : Call I V)
    (hc : (Sys.run mk es).calls[k]? = some c) (ho : c.answer = none) :
    (∃ d : Call I V, (Sys.run mk (es ++ [.go k])).calls[k]? = some d ∧ d.value = c.value ∧
      (d.answer ≠ none ∨ d.tries = c.tries + 1)) ∧
    ((∀ a b, a < 2 ^ 64 → b < 2 ^ 64 → mk c.value a = mk c.value b → a = b) → c.tries ≤ 2 ^ 64 →
      c.tries ≤ (Sys.run mk es).map.length) := by
  constructor
  · rw [run_append]
    simp only [List.foldl_cons, List.foldl_nil, Sys.step]
    rw [hc]; simp only [ho]
    have hk := (List.getElem?_eq_some_iff.1 hc).1
    split
    · exact ⟨_, List.getElem?_set_self hk, rfl, .inl (by simp)⟩
    · exact ⟨_, List.getElem?_set_self hk, rfl, .inr rfl⟩
  · intro hi hk
    exact ((run_ok es).open_ c (List.mem_of_getElem? hc)).le_length hi hk

/-- **C47.** As long as no two of the values interned have the same first fingerprint, identifiers do
not depend on the schedule: each is the first fingerprint of its value. -/
theorem C47_deterministic (mk : V → Nat → I) (es : List (Event V))
    (hn : ∀ v w : V, Event.call v ∈ es → Event.call w ∈ es → mk v 0 = mk w 0 → v = w) :
    ∀ c ∈ (Sys.run mk es).calls, ∀ i : I, c.answer = some i → i = mk c.value 0 := by
  suffices h : ∀ (es' : List (Event V)) (s : Sys I V), (∀ e ∈ es', e ∈ es) →
      ((∀ c ∈ s.calls, Event.call c.value ∈ es ∧ c.tries = 0 ∧
          ∀ i : I, c.answer = some i → i = mk c.value 0) ∧
        (∀ (i : I) (v : V), s.map.lookup i = some v → Event.call v ∈ es ∧ i = mk v 0)) →
      ∀ c ∈ (es'.foldl (Sys.step mk) s).calls, ∀ i : I, c.answer = some i → i = mk c.value 0 by
    exact h es ⟨[], []⟩ (fun _ h => h) ⟨fun c hc => absurd hc List.not_mem_nil,
      fun i v hv => absurd hv (by simp)⟩
  intro es'
  induction es' with
  | nil => intro s _ hs c hc i hi; exact (hs.1 c hc).2.2 i hi
  | cons e es' ih =>
    intro s hsub hs
    rw [List.foldl_cons]
    refine ih _ (fun x hx => hsub x (List.mem_cons_of_mem _ hx)) ?_
    cases e with
    | call v =>
      refine ⟨?_, hs.2⟩
      intro c hc
      simp only [Sys.step, List.mem_append, List.mem_singleton] at hc
      rcases hc with hc | rfl
      · exact hs.1 c hc
      · exact ⟨hsub _ (List.mem_cons_self ..), rfl, fun i hi => by cases hi⟩
    | go n =>
      unfold Sys.step
      simp only
      split
      · exact hs
      · rename_i c hc
        have hmem := hs.1 c (List.mem_of_getElem? hc)
        split
        · exact hs
        · rename_i ha
          have e0 : saltAt c.tries = 0 := by rw [hmem.2.1]; rfl
          unfold pass
          simp only
          rw [e0]
          cases el : s.map.lookup (mk c.value 0) with
          | some w =>
            simp only
            have hw := hs.2 _ _ el
            have hwv : w = c.value := hn _ _ hw.1 hmem.1 hw.2.symm
            rw [if_pos hwv]
            refine ⟨?_, hs.2⟩
            intro d hd
            rcases List.mem_or_eq_of_mem_set hd with hd | rfl
            · exact hs.1 d hd
            · exact ⟨hmem.1, hmem.2.1, fun i hi => (Option.some.inj hi).symm⟩
          | none =>
            simp only
            refine ⟨?_, ?_⟩
            · intro d hd
              rcases List.mem_or_eq_of_mem_set hd with hd | rfl
              · exact hs.1 d hd
              · exact ⟨hmem.1, hmem.2.1, fun i hi => (Option.some.inj hi).symm⟩
            · intro i v hv
              rw [List.lookup_cons] at hv
              by_cases ei : i = mk c.value 0
              · subst ei
                simp only [beq_self_eq_true, Option.some.injEq] at hv
                subst hv; exact ⟨hmem.1, rfl⟩
              · rw [show (i == mk c.value 0) = false by simpa using ei] at hv
                exact hs.2 i v hv

/-- The case of `C47_concurrent`: two threads intern values with the same first fingerprint at the same
time, and a third one interns the first value again. They are told apart. -/
example :
    let mk : Bool → Nat → Nat := fun _ salt => salt
    let s := Sys.run mk [.call true, .call false, .go 1, .go 0, .call true, .go 0, .go 2, .go 2]
    s.calls.map (fun c => c.answer) = [some 1, some 0, some 1] := by
  decide +kernel

/-- The case of `C47_deterministic`. -/
example : ∀ v w : Bool, Event.call v ∈ [Event.call true, .go 0, .call false, .go 1] →
    Event.call w ∈ [Event.call true, .go 0, .call false, .go 1] →
    (fun (b : Bool) (salt : Nat) => if b then 2 * salt else 2 * salt + 1) v 0 =
      (fun (b : Bool) (salt : Nat) => if b then 2 * salt else 2 * salt + 1) w 0 → v = w := by
  intro v w _ _
  cases v <;> cases w <;> simp

/-! ## One call after the other -/

/-- A history of interning, and the identifiers returned; `none` if some call does not return. -/
def internAll (mk : V → Nat → I) : List (I × V) → List V → Option (List (I × V) × List I)
  | m, [] => some (m, [])
  | m, v :: vs =>
    match insertWithCollision mk m v with
    | none => none
    | some (m', i) =>
      match internAll mk m' vs with
      | none => none
      | some (m'', is) => some (m'', i :: is)

theorem internAll_spec (mk : V → Nat → I) : ∀ (vs : List V) (m m' : List (I × V)) (is : List I),
    MapOk mk m → internAll mk m vs = some (m', is) →
    MapOk mk m' ∧ Ext m m' ∧ is.length = vs.length ∧
      ∀ (a : Nat) (v : V) (i : I), vs[a]? = some v → is[a]? = some i → m'.lookup i = some v
  | [], m, m', is, hm, h => by
    simp only [internAll, Option.some.injEq, Prod.mk.injEq] at h
    obtain ⟨rfl, rfl⟩ := h
    exact ⟨hm, Ext.refl _, rfl, fun a v i h _ => by simp at h⟩
  | v :: vs, m, m', is, hm, h => by
    unfold internAll at h
    split at h
    · cases h
    · rename_i m1 i1 e
      split at h
      · cases h
      · rename_i m2 is2 e2
        simp only [Option.some.injEq, Prod.mk.injEq] at h
        obtain ⟨rfl, rfl⟩ := h
        obtain ⟨hx, hm1, hl, _⟩ := insert_spec hm e
        obtain ⟨h1, h2, h3, h4⟩ := internAll_spec mk vs m1 m2 is2 hm1 e2
        refine ⟨h1, hx.trans h2, by simp [h3], ?_⟩
        intro a w i ha hi
        cases a with
        | zero =>
          simp only [List.getElem?_cons_zero, Option.some.injEq] at ha hi
          subst ha; subst hi; exact h2 _ _ hl
        | succ a => exact h4 a w i (by simpa using ha) (by simpa using hi)

/-- **C47.** For every history of interning: equal values get equal identifiers, different values
different ones, and at the end every identifier returned denotes its value. -/
theorem C47_sequential (mk : V → Nat → I) (vs : List V) (m : List (I × V)) (is : List I)
    (h : internAll mk [] vs = some (m, is)) :
    is.length = vs.length ∧
    (∀ (a b : Nat) (v w : V) (i j : I), vs[a]? = some v → vs[b]? = some w → is[a]? = some i →
      is[b]? = some j → (i = j ↔ v = w)) ∧
    (∀ (a : Nat) (v : V) (i : I), vs[a]? = some v → is[a]? = some i → m.lookup i = some v) := by
  obtain ⟨h1, _, h3, h4⟩ := internAll_spec mk vs [] m is mapOk_nil h
  refine ⟨h3, ?_, h4⟩
  intro a b v w i j ha hb hi hj
  have e1 := h4 a v i ha hi
  have e2 := h4 b w j hb hj
  constructor
  · rintro rfl; rw [e1] at e2; exact Option.some.inj e2
  · rintro rfl; exact h1.inj e1 e2

/-- **C47.** If different salts give different identifiers for a value, and there are fewer entries
than salts, interning it returns. -/
theorem C47_returns (mk : V → Nat → I) (m : List (I × V)) (v : V)
    (hi : ∀ a b, a < 2 ^ 64 → b < 2 ^ 64 → mk v a = mk v b → a = b) (hs : m.length < 2 ^ 64) :
    (insertWithCollision mk m v).isSome :=
  insertFrom_total hi hs _ _ (fun j hj => absurd hj (Nat.not_lt_zero j)) (Nat.zero_add _)

/-- **C47.** With the feature `strict-determinism`, an identifier is the first fingerprint of its
value, whatever was interned before; a collision is reported instead of resolved. -/
theorem C47_strict (mk : V → Nat → I) (m : List (I × V)) (v : V) :
    (∀ (m' : List (I × V)) (i : I), insertStrict mk m v = some (m', i) →
      i = mk v 0 ∧ m'.lookup i = some v ∧
        ∀ (j : I) (w : V), m.lookup j = some w → m'.lookup j = some w) ∧
    (insertStrict mk m v = none ↔ ∃ w, w ≠ v ∧ m.lookup (mk v 0) = some w) := by
  unfold insertStrict pass
  rw [show saltAt 0 = 0 from rfl]
  simp only
  cases e : m.lookup (mk v 0) with
  | none =>
    refine ⟨fun m' i h => ?_, by simp⟩
    simp only [Option.some.injEq, Prod.mk.injEq] at h
    obtain ⟨rfl, rfl⟩ := h
    exact ⟨rfl, by simp, ext_cons e⟩
  | some w =>
    by_cases hw : w = v
    · subst hw
      refine ⟨fun m' i h => ?_, by simp⟩
      simp only [if_true, Option.some.injEq, Prod.mk.injEq] at h
      obtain ⟨rfl, rfl⟩ := h
      exact ⟨rfl, e, fun _ _ h => h⟩
    · simp only [if_neg hw]
      exact ⟨fun m' i h => by simp at h, by simp [hw]⟩

/-- The case of `C47_sequential`: all fingerprints collide. -/
example : (internAll (fun (_ : Bool) salt => salt) [] [true, false, true]).map Prod.snd =
    some [0, 1, 0] := by decide +kernel

/-- The case of `C47_returns`. -/
example : ∀ a b, a < 2 ^ 64 → b < 2 ^ 64 → (fun (_ : Bool) (salt : Nat) => salt) true a =
    (fun (_ : Bool) (salt : Nat) => salt) true b → a = b := fun _ _ _ _ h => h

/-! ## Snapshots -/

/-- **C67.** Restoring the snapshot of a map that interning built succeeds; every identifier denotes
in the restored map what it denoted before (and no more identifiers are there), and interning any
value afterwards returns what it would have returned in the original. -/
theorem C67_map (mk : V → Nat → I) (cmp : I → I → Ordering) (vs : List V) (m : List (I × V))
    (is : List I) (h : internAll mk [] vs = some (m, is)) :
    ∃ m', restoreMap (snapshotMap cmp m) = some m' ∧ (∀ i, m'.lookup i = m.lookup i) ∧
      ∀ v, (insertWithCollision mk m' v).map Prod.snd = (insertWithCollision mk m v).map Prod.snd := by
  have hm := (internAll_spec mk vs [] m is mapOk_nil h).1
  have hp : (snapshotMap cmp m).Perm m := Harness.sortBy_perm m
  have hn : ((snapshotMap cmp m ++ []).map Prod.fst).Nodup := by
    rw [List.append_nil]; exact (hp.map Prod.fst).nodup_iff.2 hm.nodup
  refine ⟨_, restore_spec _ [] hn, ?_, ?_⟩
  · rw [List.append_nil]
    exact lookup_perm (hp.symm.trans (List.reverse_perm _).symm) hm.nodup
  · intro v
    rw [List.append_nil]
    have hl := lookup_perm (hp.symm.trans (List.reverse_perm (snapshotMap cmp m)).symm) hm.nodup
    generalize hM : (snapshotMap cmp m).reverse = M at hl ⊢
    unfold insertWithCollision
    generalize 2 ^ 64 = n
    suffices hs : ∀ n t, (insertFrom mk M v n t).map Prod.snd = (insertFrom mk m v n t).map Prod.snd from
      hs n 0
    intro n
    induction n with
    | zero => intro t; rfl
    | succ n ih =>
      intro t
      unfold insertFrom pass
      simp only
      rw [hl]
      cases m.lookup (mk v (saltAt t)) with
      | none => rfl
      | some w =>
        by_cases hw : w = v
        · simp [hw]
        · simp only [if_neg hw]; exact ih (t + 1)

example : (restoreMap (snapshotMap (fun a b : Nat => compare a b) [(7, true), (3, false)])).isSome := by
  decide +kernel

end

/-! ## Names -/

/-- A history of interning names, and the identifiers returned. -/
def internNames (mk : List Nat → Nat → Nat) : Names → List (List Nat) → Option (Names × List Nat)
  | s, [] => some (s, [])
  | s, n :: ns =>
    match s.intern mk n with
    | none => none
    | some (s', i) =>
      match internNames mk s' ns with
      | none => none
      | some (s'', is) => some (s'', i :: is)

theorem internNames_spec (mk : List Nat → Nat → Nat) : ∀ (ns : List (List Nat)) (s s' : Names)
    (is : List Nat), NamesOk s → internNames mk s ns = some (s', is) →
    NamesOk s' ∧ Ext s.byName s'.byName ∧ is.length = ns.length ∧
      ∀ (a : Nat) (n : List Nat) (i : Nat), ns[a]? = some n → is[a]? = some i →
        s'.byName.lookup n = some i
  | [], s, s', is, hs, h => by
    simp only [internNames, Option.some.injEq, Prod.mk.injEq] at h
    obtain ⟨rfl, rfl⟩ := h
    exact ⟨hs, Ext.refl _, rfl, fun a v i h _ => by simp at h⟩
  | n :: ns, s, s', is, hs, h => by
    unfold internNames at h
    split at h
    · cases h
    · rename_i s1 i1 e
      split at h
      · cases h
      · rename_i s2 is2 e2
        simp only [Option.some.injEq, Prod.mk.injEq] at h
        obtain ⟨rfl, rfl⟩ := h
        obtain ⟨hs1, hl, hx⟩ := intern_spec hs e
        obtain ⟨h1, h2, h3, h4⟩ := internNames_spec mk ns s1 s2 is2 hs1 e2
        refine ⟨h1, hx.trans h2, by simp [h3], ?_⟩
        intro a w i ha hi
        cases a with
        | zero =>
          simp only [List.getElem?_cons_zero, Option.some.injEq] at ha hi
          subst ha; subst hi; exact h2 _ _ hl
        | succ a => exact h4 a w i (by simpa using ha) (by simpa using hi)

/-- **C47.** Names: for every history, equal names get equal identifiers, different names different
ones, and every identifier returned denotes its name at the end (so at any later time: histories are
arbitrary). -/
theorem C47_names (mk : List Nat → Nat → Nat) (ns : List (List Nat)) (s : Names) (is : List Nat)
    (h : internNames mk ⟨[], []⟩ ns = some (s, is)) :
    is.length = ns.length ∧
    (∀ (a b : Nat) (v w : List Nat) (i j : Nat), ns[a]? = some v → ns[b]? = some w →
      is[a]? = some i → is[b]? = some j → (i = j ↔ v = w)) ∧
    (∀ (a : Nat) (v : List Nat) (i : Nat), ns[a]? = some v → is[a]? = some i →
      s.byId.lookup i = some v) := by
  obtain ⟨h1, _, h3, h4⟩ := internNames_spec mk ns _ s is namesOk_nil h
  refine ⟨h3, ?_, fun a v i ha hi => h1.there _ _ (h4 a v i ha hi)⟩
  intro a b v w i j ha hb hi hj
  have e1 := h4 a v i ha hi
  have e2 := h4 b w j hb hj
  constructor
  · rintro rfl
    have f1 := h1.there _ _ e1
    have f2 := h1.there _ _ e2
    rw [f1] at f2; exact Option.some.inj f2
  · rintro rfl; rw [e1] at e2; exact Option.some.inj e2

example : (internNames (fun _ salt => salt) ⟨[], []⟩ [[1], [2], [1]]).map Prod.snd = some [0, 1, 0] := by
  decide +kernel

end Verif.Types
