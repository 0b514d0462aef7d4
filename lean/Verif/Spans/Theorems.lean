import Verif.Spans.Proofs

/-!
# C85: the innermost span at an offset is found
-/

namespace Verif.Spans

/-- C85. After any sequence of additions and finalizations, ended by a finalization, the query at an
offset finds the innermost span at it, and nothing exactly if there is none; the span of an id is the
best one added for it. -/
theorem C85 {T : Type} [LinearOrder T] (ops : List (Op T)) :
    (∀ o r, (run ops).finalize.query o = some r ↔ Innermost (added ops) o r) ∧
    (∀ o, (run ops).finalize.query o = none ↔ ∀ s ∈ added ops, ¬ Covers s o) ∧
    (∀ i r, (run ops).finalize.spanOf i = some r ↔
      r ∈ added ops ∧ r.id = i ∧ ∀ s ∈ added ops, s.id = i → ¬ Better s r) := by
  have h := holds_run ops
  refine ⟨fun o r => query_right h o r, fun o => ?_, fun i r => ?_⟩
  · constructor
    · intro hn s hs hc
      obtain ⟨r, hr, hcr, hm⟩ := exists_least (ss := added ops) (fun s => Covers s o) ⟨s, hs, hc⟩
      have := (query_right h o r).2 ⟨hr, hcr, fun s hs hc => (not_better_iff s r).2 (hm s hs hc)⟩
      rw [hn] at this
      cases this
    · intro hno
      cases hq : (run ops).finalize.query o with
      | none => rfl
      | some r =>
        have := (query_right h o r).1 hq
        exact absurd this.2.1 (hno r this.1)
  · show (run ops).byId i = some r ↔ _
    rw [h.byId]
    simp only [not_better_iff]

/-- So the order in which spans are added does not matter. -/
theorem C85_order {T : Type} [LinearOrder T] (ops ops' : List (Op T))
    (hsame : ∀ s, s ∈ added ops ↔ s ∈ added ops') (o : Nat) :
    (run ops).finalize.query o = (run ops').finalize.query o := by
  have hi : ∀ r, Innermost (added ops) o r ↔ Innermost (added ops') o r := by
    intro r; simp only [Innermost, hsame]
  cases h : (run ops).finalize.query o with
  | some r => exact (((C85 ops').1 o r).2 ((hi r).1 (((C85 ops).1 o r).1 h))).symm
  | none =>
    refine (((C85 ops').2.1 o).2 fun s hs => ?_).symm
    exact ((C85 ops).2.1 o).1 h s ((hsame s).2 hs)

/-! ## Definitions -/

/-- A definition with its range and the rank of its kind. -/
structure Def where
  start : Nat
  stop : Nat
  rank : Nat
  id : Nat

/-- The definitions after some additions, finalized. -/
def defs (ds : List Def) : Defs :=
  (ds.foldl (fun (x : Defs) d => x.add d.start d.stop d.rank d.id) {}).finalize

def Def.span (d : Def) : Span DefKey := ⟨d.start, d.stop, toLex (d.rank, d.id)⟩

theorem defs_fold (ds : List Def) : ∀ x : Defs,
    (ds.foldl (fun (x : Defs) d => x.add d.start d.stop d.rank d.id) x).index =
      (ds.map fun d => Op.add d.span).foldl step x.index := by
  induction ds with
  | nil => intro x; rfl
  | cons d ds ih => intro x; exact ih _

theorem defs_index (ds : List Def) :
    (defs ds).index = (run (ds.map fun d => Op.add d.span)).finalize := by
  show Index.finalize (T := DefKey) _ = _
  rw [defs_fold]
  rfl

theorem defs_added (ds : List Def) : added (ds.map fun d => Op.add d.span) = ds.map Def.span := by
  simp [added, List.filterMap_map, Function.comp_def]

/-- C85 for definitions: the definition found is one of the shortest at the offset, of those one that
starts first, of those one of the first kind, of those the one with the smallest id. -/
theorem C85_defs (ds : List Def) (o start stop i : Nat) (h : (defs ds).at o = some (start, stop, i)) :
    ∃ d ∈ ds, d.start = start ∧ d.stop = stop ∧ d.id = i ∧ Covers d.span o ∧
      ∀ e ∈ ds, Covers e.span o →
        d.stop - d.start < e.stop - e.start ∨ (d.stop - d.start = e.stop - e.start ∧
          (d.start < e.start ∨ (d.start = e.start ∧
            (d.rank < e.rank ∨ (d.rank = e.rank ∧ d.id ≤ e.id))))) := by
  have hidx := defs_index ds
  have hadd := defs_added ds
  rw [Defs.at, hidx, Option.map_eq_some_iff] at h
  obtain ⟨s, hs, he⟩ := h
  obtain ⟨hm, hc, hmin⟩ := ((C85 (ds.map fun d => Op.add d.span)).1 o s).1 hs
  rw [hadd] at hm hmin
  obtain ⟨d, hd, rfl⟩ := List.mem_map.1 hm
  cases he
  refine ⟨d, hd, rfl, rfl, rfl, hc, fun e he' hce => ?_⟩
  have := (not_better_iff _ _).1 (hmin e.span (List.mem_map_of_mem he') hce)
  rcases lt_or_eq_of_le this with h | h
  · rw [← better_iff] at h
    simp only [Better, Def.span, Prod.Lex.toLex_lt_toLex, toLex_inj, Prod.mk.injEq] at h
    omega
  · have := congrArg Span.start h
    have h2 := congrArg Span.stop h
    have h3 := congrArg Span.id h
    simp only [Def.span, toLex_inj, Prod.mk.injEq] at this h2 h3
    omega

/-- No definition is found exactly if none is at the offset. -/
theorem C85_defs_none (ds : List Def) (o : Nat) :
    (defs ds).at o = none ↔ ∀ d ∈ ds, ¬ Covers d.span o := by
  rw [Defs.at, defs_index, Option.map_eq_none_iff, (C85 _).2.1, defs_added]
  simp

theorem defs_keys (ds : List Def) (i : Nat) : ∀ (x : Defs) (k : DefKey),
    (ds.foldl (fun (x : Defs) d => x.add d.start d.stop d.rank d.id) x).keys i = some k →
      x.keys i = some k ∨ ∃ d ∈ ds, d.id = i ∧ k = toLex (d.rank, d.id) := by
  induction ds with
  | nil => intro x k h; exact .inl h
  | cons d ds ih =>
    intro x k h
    rcases ih _ k h with h | ⟨e, he, h⟩
    · simp only [Defs.add] at h
      split at h
      · rename_i hi
        cases h
        exact .inr ⟨d, by simp, hi.symm, rfl⟩
      · exact .inl h
    · exact .inr ⟨e, by simp [he], h⟩

theorem defs_keys_some (ds : List Def) (i : Nat) : ∀ x : Defs,
    (x.keys i ≠ none ∨ ∃ d ∈ ds, d.id = i) →
    (ds.foldl (fun (x : Defs) d => x.add d.start d.stop d.rank d.id) x).keys i ≠ none := by
  induction ds with
  | nil => intro x h; simpa using h
  | cons d ds ih =>
    intro x h
    refine ih _ ?_
    simp only [Defs.add]
    by_cases hi : i = d.id
    · left; simp [hi]
    · rcases h with h | ⟨e, he, h⟩
      · left; simpa [hi] using h
      · rcases List.mem_cons.1 he with rfl | he
        · exact absurd h.symm hi
        · exact .inr ⟨e, he, h⟩

/-- The span of a definition is the best one added for it, if it is always added with the same
kind. -/
theorem C85_defs_span (ds : List Def) (hk : ∀ d ∈ ds, ∀ e ∈ ds, d.id = e.id → d.rank = e.rank)
    (i start stop : Nat) :
    (defs ds).spanOf i = some (start, stop) ↔
      ∃ d ∈ ds, d.id = i ∧ d.start = start ∧ d.stop = stop ∧
        ∀ e ∈ ds, e.id = i → ¬ Better e.span d.span := by
  have hspan : ∀ (k : DefKey) (r : Span DefKey), (defs ds).index.spanOf k = some r ↔
      r ∈ ds.map Def.span ∧ r.id = k ∧ ∀ s ∈ ds.map Def.span, s.id = k → ¬ Better s r := by
    intro k r
    rw [defs_index, (C85 _).2.2, defs_added]
  have hkeys := defs_keys ds i {}
  have hsome := defs_keys_some ds i {}
  change ∀ k, (defs ds).keys i = some k → _ at hkeys
  change _ → (defs ds).keys i ≠ none at hsome
  simp only [Defs.spanOf]
  cases hki : (defs ds).keys i with
  | none =>
    rw [hki] at hsome
    simp only [reduceCtorEq, false_iff]
    rintro ⟨d, hd, hdi, _⟩
    exact hsome (.inr ⟨d, hd, hdi⟩) rfl
  | some k =>
    rcases hkeys k hki with h | ⟨c, hc, hci, rfl⟩
    · cases h
    simp only [Option.map_eq_some_iff, hspan]
    have hid : ∀ e ∈ ds, (e.span.id = toLex (c.rank, c.id) ↔ e.id = i) := by
      intro e he
      simp only [Def.span, toLex_inj, Prod.mk.injEq]
      constructor
      · rintro ⟨_, h⟩; omega
      · intro h; exact ⟨hk e he c hc (by omega), by omega⟩
    constructor
    · rintro ⟨r, ⟨hm, hri, hmin⟩, he⟩
      obtain ⟨d, hd, rfl⟩ := List.mem_map.1 hm
      cases he
      exact ⟨d, hd, (hid d hd).1 hri, rfl, rfl, fun e he hei =>
        hmin e.span (List.mem_map_of_mem he) ((hid e he).2 hei)⟩
    · rintro ⟨d, hd, hdi, rfl, rfl, hmin⟩
      refine ⟨d.span, ⟨List.mem_map_of_mem hd, (hid d hd).2 hdi, fun s hs hsi => ?_⟩, rfl⟩
      obtain ⟨e, he, rfl⟩ := List.mem_map.1 hs
      exact hmin e he ((hid e he).1 hsi)

/-! ## Examples -/

/-- Nested, overlapping and empty spans; one is added after the index was used. -/
def sample : List (Op Nat) :=
  [.add ⟨0, 10, 0⟩, .add ⟨2, 8, 1⟩, .finalize, .add ⟨4, 4, 2⟩, .add ⟨7, 12, 3⟩, .add ⟨2, 8, 4⟩]

example : (run sample).finalize.query 3 = some ⟨2, 8, 1⟩ ∧
    (run sample).finalize.query 4 = some ⟨4, 4, 2⟩ ∧
    (run sample).finalize.query 7 = some ⟨7, 12, 3⟩ ∧
    (run sample).finalize.query 12 = none := by decide +kernel

example : Innermost (added sample) 3 ⟨2, 8, 1⟩ := ((C85 sample).1 3 _).1 (by decide +kernel)

example : (run sample.reverse).finalize.query 4 = some ⟨4, 4, 2⟩ := by
  rw [C85_order sample.reverse sample (by simp [added, sample]; tauto)]
  decide +kernel

example : (defs [⟨0, 3, 3, 1⟩, ⟨0, 3, 0, 2⟩, ⟨0, 9, 4, 0⟩]).at 1 = some (0, 3, 2) := by rfl

/-- A definition added twice, with the same kind: the shorter span is its span. -/
example : (defs [⟨0, 9, 3, 1⟩, ⟨2, 5, 3, 1⟩, ⟨3, 4, 0, 2⟩]).spanOf 1 = some (2, 5) :=
  (C85_defs_span _ (by simp) _ _ _).2 ⟨⟨2, 5, 3, 1⟩, by simp, rfl, rfl, rfl, by
    simp [Better, Def.span]⟩

end Verif.Spans
