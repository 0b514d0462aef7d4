import Verif.Harness.Lemmas
import Verif.Values.Lemmas
/-!
# Properties C43–C46
-/

namespace Verif.Harness

/-! ## C43: diagnostics order -/

/-- C43.  The comparison of diagnostics is a total preorder, and two diagnostics compare equal exactly
when they agree in everything except perhaps the order of labels and notes. -/
theorem C43_total_preorder :
    TotalPreorder diagnosticCmp ∧ (∀ a b, diagnosticCmp a b = .eq ↔ SameDiagnostic a b) :=
  ⟨tp_diagnostic, diagnosticCmp_eq⟩

/-- C43.  Sorting returns the same diagnostics, in order, and keeps diagnostics that compare equal in
the order in which they were produced. -/
theorem C43_sort (ds : List Diagnostic) :
    (sortDiagnostics ds).Perm ds ∧
    (sortDiagnostics ds).Pairwise (fun a b => diagnosticCmp a b ≠ .gt) ∧
    ∀ d, (sortDiagnostics ds).filter (fun a => diagnosticCmp a d == .eq) =
      ds.filter (fun a => diagnosticCmp a d == .eq) :=
  ⟨sortBy_perm ds, sortBy_sorted tp_diagnostic ds, fun d => sortBy_stable tp_diagnostic d ds⟩

/-- C43.  The result of sorting does not depend on the order in which the diagnostics were produced,
up to the order of labels and notes inside each. -/
theorem C43_order_independent {ds ds' : List Diagnostic} (h : ds.Perm ds') :
    AllPairs SameDiagnostic (sortDiagnostics ds) (sortDiagnostics ds') :=
  (sortBy_congr tp_diagnostic h).imp fun a b => (diagnosticCmp_eq a b).1

/-- C43.  Normalised diagnostics are the same list, whatever the order in which diagnostics, labels and
notes were produced. -/
theorem C43_normalize {ds es es' ds' : List Diagnostic} (h : ds.Perm es)
    (hs : AllPairs SameDiagnostic es es') (h' : es'.Perm ds') :
    normalizeDiagnostics ds = normalizeDiagnostics ds' := by
  have hmap : es.map normalizeDiagnostic = es'.map normalizeDiagnostic := by
    clear h h'
    induction hs with
    | nil => rfl
    | cons hab _ ih => simp only [List.map_cons, normalize_eq hab, ih]
  have hp : (ds.map normalizeDiagnostic).Perm (ds'.map normalizeDiagnostic) := by
    refine (h.map _).trans ?_
    rw [hmap]
    exact h'.map _
  unfold normalizeDiagnostics sortDiagnostics
  refine allPairs_mem_eq (sortBy_congr tp_diagnostic hp) fun a ha b hb hab => ?_
  obtain ⟨a', _, rfl⟩ := List.mem_map.1 ((sortBy_perm _).mem_iff.1 ha)
  obtain ⟨b', _, rfl⟩ := List.mem_map.1 ((sortBy_perm _).mem_iff.1 hb)
  have := normalize_eq ((diagnosticCmp_eq _ _).1 hab)
  rwa [normalize_idem, normalize_idem] at this

/-- C43.  Normalising keeps the diagnostics (up to the order of labels and notes) and sorts them. -/
theorem C43_normalize_keeps (ds : List Diagnostic) :
    ∃ es, es.Perm ds ∧ AllPairs SameDiagnostic (normalizeDiagnostics ds) es ∧
      (normalizeDiagnostics ds).Pairwise (fun a b => diagnosticCmp a b ≠ .gt) := by
  have aux : ∀ (l m : List Diagnostic), l.Perm (m.map normalizeDiagnostic) →
      ∃ es : List Diagnostic, es.Perm m ∧ l = es.map normalizeDiagnostic := by
    intro l
    induction l with
    | nil =>
      intro m h
      have := h.length_eq
      cases m with
      | nil => exact ⟨[], .refl _, rfl⟩
      | cons _ _ => simp at this
    | cons x l ih =>
      intro m h
      obtain ⟨y, hy, rfl⟩ := List.mem_map.1 (h.mem_iff.1 (List.mem_cons_self ..))
      obtain ⟨m₁, m₂, rfl⟩ := List.append_of_mem hy
      rw [List.map_append, List.map_cons] at h
      have h2 := (h.trans List.perm_middle).cons_inv
      rw [← List.map_append] at h2
      obtain ⟨es, hes, rfl⟩ := ih _ h2
      exact ⟨y :: es, (hes.cons y).trans List.perm_middle.symm, rfl⟩
  obtain ⟨es, hes, e⟩ := aux (normalizeDiagnostics ds) ds (sortBy_perm _)
  refine ⟨es, hes, ?_, sortBy_sorted tp_diagnostic _⟩
  rw [e]
  clear e hes
  induction es with
  | nil => exact .nil
  | cons x xs ih => exact .cons (normalize_same x) ih

/-- C43.  The `Ord` instances of labels and diagnostics are total orders that agree with equality. -/
theorem C43_ord :
    TotalPreorder diagnosticOrd ∧ (∀ a b, diagnosticOrd a b = .eq ↔ a = b) ∧
    TotalPreorder labelOrd ∧ (∀ a b, labelOrd a b = .eq ↔ a = b) ∧
    ∀ a b, labelOrd a b = labelCmp a b :=
  ⟨tp_diagnosticOrd, diagnosticOrd_eq, tp_labelOrd,
    fun a b => by rw [labelOrd_as]; exact labelCmp_eq a b, labelOrd_as⟩

private def lab (s : Nat) (p : Bool) : Label := ⟨⟨0, ⟨s, s + 1⟩⟩, [97], p⟩

private def diag (f s : Nat) (ls : List Label) : Diagnostic := ⟨[84], .error, [109], ⟨f, ⟨s, s⟩⟩, ls, []⟩

example :
    sortDiagnostics [diag 1 0 [], diag 0 7 [lab 3 false, lab 2 true], diag 0 2 [],
      diag 0 7 [lab 2 true, lab 3 false]] =
    [diag 0 2 [], diag 0 7 [lab 3 false, lab 2 true], diag 0 7 [lab 2 true, lab 3 false], diag 1 0 []] := by
  decide +kernel

example :
    normalizeDiagnostics [diag 1 0 [], diag 0 7 [lab 3 false, lab 2 true]] =
    [diag 0 7 [lab 2 true, lab 3 false], diag 1 0 []] := by decide +kernel

example : AllPairs SameDiagnostic [diag 0 7 [lab 3 false, lab 2 true]]
    [diag 0 7 [lab 2 true, lab 3 false]] :=
  .cons ⟨rfl, rfl, rfl, rfl, List.Perm.swap .., .refl _⟩ .nil

/-- The two comparisons order differently: `sort_diagnostics` by position first, `Ord` by severity
first. -/
example : diagnosticCmp { diag 0 2 [] with severity := .note } (diag 0 7 []) = .lt ∧
    diagnosticOrd { diag 0 2 [] with severity := .note } (diag 0 7 []) = .gt := by decide +kernel

/-! ## C44: shards -/

/-- C44.  Shard `i` of `n` consists of the items at positions `i`, `i + n`, `i + 2n`, … in this order. -/
theorem C44_shard_items {α : Type} (items : List α) (i n : Nat) (h : i < n) :
    ∃ ys, applyShard items ⟨i, n⟩ = some ys ∧ ∀ k : Nat, ys[k]? = items[i + k * n]? := by
  obtain ⟨ys, hy⟩ := applyFrom_total ⟨i, n⟩ (by simp only; omega) items 0
  exact ⟨ys, hy, applyFrom_get ⟨i, n⟩ h items 0 i ys h (by simp [Nat.mod_eq_of_lt h]) hy⟩

/-- C44.  The shards together are exactly the test list, each item in exactly one shard, and each shard
keeps the order of the list. -/
theorem C44_partition {α : Type} (items : List α) (n : Nat) (h : 0 < n) :
    ((List.range n).flatMap fun i => (applyShard items ⟨i, n⟩).getD []).Perm items ∧
    ∀ i, i < n → ∃ ys, applyShard items ⟨i, n⟩ = some ys ∧ ys.Sublist items := by
  refine ⟨applyFrom_partition n h items 0, fun i _ => ?_⟩
  obtain ⟨ys, hy⟩ := applyFrom_total ⟨i, n⟩ (by simp only; omega) items 0
  exact ⟨ys, hy, applyFrom_sublist _ (by simp only; omega) items 0 ys hy⟩

/-- C44.  Each position of the list is taken by exactly one shard. -/
theorem C44_each_position (p n : Nat) (h : 0 < n) :
    ∃ i, i < n ∧ Shard.includes ⟨i, n⟩ p = some true ∧
      ∀ j, j < n → Shard.includes ⟨j, n⟩ p = some true → j = i := by
  refine ⟨p % n, Nat.mod_lt _ h, ?_, ?_⟩
  · unfold Shard.includes; rw [if_neg (by simp only; omega)]; simp
  · intro j _ hj
    unfold Shard.includes at hj
    rw [if_neg (by simp only; omega)] at hj
    simp at hj
    exact hj.symm

/-- C44.  Shard sizes differ by at most one. -/
theorem C44_sizes {α : Type} (items : List α) (i j n : Nat) (hi : i < n) (hj : j < n)
    {ys zs : List α} (hy : applyShard items ⟨i, n⟩ = some ys) (hz : applyShard items ⟨j, n⟩ = some zs) :
    ys.length ≤ zs.length + 1 := by
  obtain ⟨ys', hy', gy⟩ := C44_shard_items items i n hi
  obtain ⟨zs', hz', gz⟩ := C44_shard_items items j n hj
  rw [hy] at hy'; cases hy'
  rw [hz] at hz'; cases hz'
  refine Classical.byContradiction fun hn => ?_
  have h1 : (ys[zs.length + 1]?).isSome := by simp; omega
  rw [gy] at h1
  have h2 : ¬ (zs[zs.length]?).isSome := by simp
  rw [gz] at h2
  simp only [Option.isSome_iff_ne_none, Ne, List.getElem?_eq_none_iff, Nat.not_le] at h1 h2
  rw [Nat.add_mul] at h1
  omega

/-- C44.  A shard is accepted exactly when it is written `index/total` with two numbers (decimal digits,
a leading `+` allowed) that fit in 64 bits and `index < total`. -/
theorem C44_parse (raw : Str) (s : Shard) :
    Shard.fromStr raw = some s ↔
      ∃ a b, raw = a ++ 47 :: b ∧ 47 ∉ a ∧ Denotes a s.index ∧ Denotes b s.total ∧
        s.index < s.total := by
  constructor
  · intro h
    unfold Shard.fromStr at h
    split at h
    · cases h
    · rename_i a b hs
      split at h
      · cases h
      · rename_i i hi
        split at h
        · cases h
        · rename_i n hn
          split at h
          · cases h
          · split at h
            · cases h
            · cases h
              obtain ⟨h1, h2⟩ := (splitOnce_spec raw a b).1 hs
              exact ⟨a, b, h1, h2, (parseUsize_spec a i).1 hi, (parseUsize_spec b n).1 hn,
                by simp only; omega⟩
  · rintro ⟨a, b, h1, h2, h3, h4, h5⟩
    unfold Shard.fromStr
    rw [(splitOnce_spec raw a b).2 ⟨h1, h2⟩]
    simp only [(parseUsize_spec _ _).2 h3, (parseUsize_spec _ _).2 h4]
    rw [if_neg (by omega), if_neg (by omega)]

/-- C44.  The text `i/n` parses iff `i < n`, and then to shard `i` of `n`. -/
theorem C44_parse_numbers (i n : Nat) (hi : i < 2 ^ 64) (hn : n < 2 ^ 64) :
    Shard.fromStr (Values.toDigits i ++ 47 :: Values.toDigits n) =
      if i < n then some ⟨i, n⟩ else none := by
  have hd : ∀ m, m < 2 ^ 64 → Denotes (Values.toDigits m) m := fun m hm =>
    ⟨_, .inl rfl, ⟨(Values.toDigits_digits m).1, (Values.toDigits_digits m).2⟩,
      Values.toDigits_value m, hm⟩
  have hno : 47 ∉ Values.toDigits i := by
    intro h
    have := (Values.toDigits_digits i).2 47 h
    omega
  split
  · rename_i h
    rw [C44_parse]
    exact ⟨_, _, rfl, hno, hd i hi, hd n hn, h⟩
  · rename_i h
    cases e : Shard.fromStr (Values.toDigits i ++ 47 :: Values.toDigits n) with
    | none => rfl
    | some s =>
      exfalso
      unfold Shard.fromStr at e
      rw [(splitOnce_spec _ _ _).2 ⟨rfl, hno⟩] at e
      simp only [(parseUsize_spec _ _).2 (hd i hi), (parseUsize_spec _ _).2 (hd n hn)] at e
      split at e
      · cases e
      · rw [if_pos (by omega)] at e; cases e

/-- C44.  A shard that parsed can be applied to every list without a panic. -/
theorem C44_parsed_applies {α : Type} (raw : Str) (s : Shard) (h : Shard.fromStr raw = some s)
    (items : List α) : ∃ ys, applyShard items s = some ys := by
  obtain ⟨_, _, _, _, _, _, h5⟩ := (C44_parse raw s).1 h
  exact applyFrom_total s (by omega) items 0

example : applyShard [10, 11, 12, 13, 14, 15, 16] ⟨1, 3⟩ = some [11, 14] := by decide
example : Shard.fromStr [49, 47, 51] = some ⟨1, 3⟩ := by decide +kernel
example : Shard.fromStr [51, 47, 51] = none := by decide +kernel
example : Shard.fromStr [43, 48, 47, 48, 53] = some ⟨0, 5⟩ := by decide +kernel
/-- A `Shard` literal with total zero panics on a non-empty list. -/
example : applyShard [10] ⟨0, 0⟩ = none := by decide

/-! ## C45: expectations -/

/-- C45.  A manifest is accepted iff each entry has exactly one of `id`, `glob` and `regex`, a pattern
that compiles, and a status. -/
theorem C45_accepts (P : Patterns) (es : List RawEntry) :
    (fromManifest P es).isSome ↔ ∀ e ∈ es, ∃ m k, Accepts P e m k := loop_some P es _

/-- C45.  The expectation of a test is that of the first exact entry, else of the first matching glob,
else of the first matching regular expression; if no entry applies it is the default. -/
theorem C45_lookup (P : Patterns) (es : List RawEntry) (x : Expectations)
    (h : fromManifest P es = some x) (id : Str) :
    (∃ i e k, Decides P es id i e ∧ e.status = some k ∧
      x.lookup P id = ⟨⟨k, e.reason, e.trackingIssue⟩, true⟩) ∨
    ((∀ e ∈ es, ∀ r, ¬ AppliesAt P e id r) ∧ x.lookup P id = ⟨⟨.pass, none, none⟩, false⟩) := by
  have hacc := (C45_accepts P es).1 (by rw [h]; rfl)
  obtain ⟨h0, h1, h2⟩ := loop_spec P es _ x h
  simp only [List.nil_append] at h0 h1 h2
  have hr : ∀ (e : RawEntry) (r : Nat), AppliesAt P e id r → r = 0 ∨ r = 1 ∨ r = 2 := by
    intro e r ha; cases ha <;> simp
  have hmem : ∀ (j : Nat) (f : RawEntry), es[j]? = some f → f ∈ es := fun j f hj =>
    List.mem_of_getElem? hj
  unfold Expectations.lookup
  rw [h0, h1, h2]
  cases e0 : lookupIn P id (es.filterMap (ofRank P 0)) with
  | some a =>
    left
    obtain ⟨i, e, k, g1, g2, g3, g4, g5⟩ := lookupIn_some P id 0 es hacc e0
    refine ⟨i, e, k, ⟨g1, 0, g2, fun j f s hj hf => ?_⟩, g3, g4⟩
    rcases hr f s hf with rfl | rfl | rfl
    · exact .inr ⟨rfl, g5 j f hj hf⟩
    · left; omega
    · left; omega
  | none =>
    have n0 := (lookupIn_none P id 0 es hacc).1 e0
    dsimp only
    cases e1 : lookupIn P id (es.filterMap (ofRank P 1)) with
    | some a =>
      left
      obtain ⟨i, e, k, g1, g2, g3, g4, g5⟩ := lookupIn_some P id 1 es hacc e1
      refine ⟨i, e, k, ⟨g1, 1, g2, fun j f s hj hf => ?_⟩, g3, g4⟩
      rcases hr f s hf with rfl | rfl | rfl
      · exact absurd hf (n0 f (hmem j f hj))
      · exact .inr ⟨rfl, g5 j f hj hf⟩
      · left; omega
    | none =>
      have n1 := (lookupIn_none P id 1 es hacc).1 e1
      dsimp only
      cases e2 : lookupIn P id (es.filterMap (ofRank P 2)) with
      | some a =>
        left
        obtain ⟨i, e, k, g1, g2, g3, g4, g5⟩ := lookupIn_some P id 2 es hacc e2
        refine ⟨i, e, k, ⟨g1, 2, g2, fun j f s hj hf => ?_⟩, g3, g4⟩
        rcases hr f s hf with rfl | rfl | rfl
        · exact absurd hf (n0 f (hmem j f hj))
        · exact absurd hf (n1 f (hmem j f hj))
        · exact .inr ⟨rfl, g5 j f hj hf⟩
      | none =>
        right
        have n2 := (lookupIn_none P id 2 es hacc).1 e2
        refine ⟨fun e he r hf => ?_, rfl⟩
        rcases hr e r hf with rfl | rfl | rfl
        · exact n0 e he hf
        · exact n1 e he hf
        · exact n2 e he hf

/-- C45.  The order of entries is irrelevant for a test as long as applicable entries of the same kind
say the same. -/
theorem C45_order_irrelevant (P : Patterns) {es es' : List RawEntry} {x x' : Expectations}
    (hp : es.Perm es') (h : fromManifest P es = some x) (h' : fromManifest P es' = some x') (id : Str)
    (hu : ∀ e ∈ es, ∀ f ∈ es, ∀ r, AppliesAt P e id r → AppliesAt P f id r →
      e.status = f.status ∧ e.reason = f.reason ∧ e.trackingIssue = f.trackingIssue) :
    x.lookup P id = x'.lookup P id := by
  rcases C45_lookup P es x h id with ⟨i, e, k, ⟨g1, r, g2, g3⟩, g4, g5⟩ | ⟨g1, g2⟩
  · have he := List.mem_of_getElem? g1
    rcases C45_lookup P es' x' h' id with ⟨i', e', k', ⟨g1', r', g2', g3'⟩, g4', g5'⟩ | ⟨g1', _⟩
    · have he' := hp.mem_iff.2 (List.mem_of_getElem? g1')
      have rr : r = r' := by
        obtain ⟨j, hj⟩ := List.getElem?_of_mem he'
        obtain ⟨j', hj'⟩ := List.getElem?_of_mem (hp.mem_iff.1 he)
        have a1 := g3 j e' r' hj g2'
        have a2 := g3' j' e r hj' g2
        omega
      subst rr
      obtain ⟨u1, u2, u3⟩ := hu e he e' he' r g2 g2'
      rw [g5, g5', u2, u3]
      rw [g4, g4'] at u1
      cases u1; rfl
    · exact absurd g2 (g1' e (hp.mem_iff.1 he) r)
  · rcases C45_lookup P es' x' h' id with ⟨i', e', k', ⟨g1', r', g2', g3'⟩, g4', g5'⟩ | ⟨_, g2'⟩
    · exact absurd g2' (g1 e' (hp.mem_iff.2 (List.mem_of_getElem? g1')) r')
    · rw [g2, g2']

/-- C45.  What a result means for a run: `pass` expects no mismatch, `skip` accepts everything, `xfail`
and `flaky` expect a mismatch; a mismatch is covered iff it is expected. -/
theorem C45_outcomes (a : Applied) (m : Bool) :
    (a.expectation.kind = .pass → (a.matches m = true ↔ m = false)) ∧
    (a.expectation.kind = .skip → a.matches m = true) ∧
    (a.expectation.kind = .xfail ∨ a.expectation.kind = .flaky → (a.matches m = true ↔ m = true)) ∧
    a.coversMismatch = a.matches true := by
  unfold Applied.matches Applied.coversMismatch
  cases a.expectation.kind <;> cases m <;> simp

private def pats : Patterns where
  globOk _ := true
  globMatch p id := p.isPrefixOf id
  regexOk p := p != []
  regexMatch p id := p.isPrefixOf id

private def raw (i g r : Option Str) (k : Kind) : RawEntry := ⟨i, g, r, some k, none, none⟩

example : (fromManifest pats [raw none (some [1]) none .xfail, raw none none (some [1]) .flaky,
    raw (some [1, 2]) none none .skip]).map (fun x => (x.lookup pats [1, 2]).expectation.kind) =
    some .skip := by decide
example : (fromManifest pats [raw none none (some [1]) .flaky, raw none (some [1]) none .xfail]).map
    (fun x => (x.lookup pats [1, 2]).expectation.kind) = some .xfail := by decide
example : (fromManifest pats [raw (some [1]) (some [1]) none .skip]).isSome = false := by decide
example : (fromManifest pats [raw none (some [1]) none .xfail]).map
    (fun x => x.lookup pats [2]) = some .default := by decide

/-- The documentation (`expectations.rs` 69–70) says that precedence ignores the order of manifest
entries.  It does not: two globs that match the same test are taken in manifest order. -/
theorem C45_order_ignored_violated :
    ∃ (P : Patterns) (es es' : List RawEntry) (x x' : Expectations) (id : Str),
      es.Perm es' ∧ fromManifest P es = some x ∧ fromManifest P es' = some x' ∧
      x.lookup P id ≠ x'.lookup P id :=
  ⟨pats, [raw none (some [1]) none .xfail, raw none (some [1, 2]) none .skip],
    [raw none (some [1, 2]) none .skip, raw none (some [1]) none .xfail], _, _, [1, 2],
    List.Perm.swap .., rfl, rfl, by decide⟩

/-! ## C46: locations -/

/-- C46.  Merging gives the smallest location that covers both. -/
theorem C46_merge (a b : Loc) :
    (a.add b).Covers a ∧ (a.add b).Covers b ∧
    ∀ c : Loc, c.Covers a → c.Covers b → c.Covers (a.add b) := by
  unfold Loc.Covers Loc.add
  refine ⟨by simp only; omega, by simp only; omega, fun c h1 h2 => by simp only; omega⟩

/-- C46.  Merging is associative, commutative and idempotent. -/
theorem C46_merge_laws (a b c : Loc) :
    (a.add b).add c = a.add (b.add c) ∧ a.add b = b.add a ∧ a.add a = a := by
  unfold Loc.add
  refine ⟨?_, ?_, ?_⟩
  · simp only [Loc.mk.injEq]; omega
  · simp only [Loc.mk.injEq]; omega
  · cases a; simp

/-- C46.  Merging with an optional location, and locations of synthetic nodes, cover what is known. -/
theorem C46_best_effort (a b : Option Loc) :
    (∀ x, a = some x → (Loc.bestEffort a b).Covers x) ∧
    (∀ x, b = some x → (Loc.bestEffort a b).Covers x) ∧
    (a = none → b = none → Loc.bestEffort a b = ⟨0, 0⟩) ∧
    (∀ x, a = some x → Loc.bestEffort a b = x.addOption b) := by
  cases a <;> cases b <;> simp [Loc.bestEffort, Loc.addOption, Loc.Covers, Loc.add] <;> omega

/-- C46.  Conversion to 32-bit offsets: without a reported overflow it is exact; an overflow is reported
exactly when an end does not fit, with the original offset of each end that does not, and such an end
becomes the largest 32-bit offset while the other is exact. -/
theorem C46_convert (l : Loc) :
    (fromLocSaturating l).1.start = min l.start (2 ^ 32 - 1) ∧
    (fromLocSaturating l).1.stop = min l.stop (2 ^ 32 - 1) ∧
    ((fromLocSaturating l).2 = none ↔ l.start < 2 ^ 32 ∧ l.stop < 2 ^ 32) ∧
    (∀ o, (fromLocSaturating l).2 = some o →
      (∀ v, o.start = some v ↔ v = l.start ∧ 2 ^ 32 ≤ l.start) ∧
      (∀ v, o.stop = some v ↔ v = l.stop ∧ 2 ^ 32 ≤ l.stop)) := by
  have hc : ∀ v, (clampToU32 v).1 = min v (2 ^ 32 - 1) ∧
      (∀ w, (clampToU32 v).2 = some w ↔ w = v ∧ 2 ^ 32 ≤ v) ∧
      ((clampToU32 v).2.isSome ↔ 2 ^ 32 ≤ v) := by
    intro v
    unfold clampToU32 u32Max
    split
    · refine ⟨by simp only; omega, fun w => ?_, by simp only [Option.isSome_some, true_iff]; omega⟩
      simp only [Option.some.injEq]
      constructor
      · intro e; exact ⟨e.symm, by omega⟩
      · intro e; exact e.1.symm
    · refine ⟨by simp only; omega, fun w => ?_, by simp; omega⟩
      simp only [reduceCtorEq, false_iff]; omega
  obtain ⟨s1, s2, s3⟩ := hc l.start
  obtain ⟨e1, e2, e3⟩ := hc l.stop
  unfold fromLocSaturating
  dsimp only
  refine ⟨s1, e1, ?_, ?_⟩
  · unfold LocOverflow.intoOption
    simp only [Bool.or_eq_true, s3, e3]
    split
    · simp only [reduceCtorEq, false_iff]; omega
    · simp only [true_iff]; omega
  · intro o ho
    unfold LocOverflow.intoOption at ho
    split at ho
    · cases ho; exact ⟨s2, e2⟩
    · cases ho

/-- C46.  The checked conversion succeeds exactly when both ends fit, and then without change. -/
theorem C46_checked (l : Loc) (r : TextRange) :
    checkedFromLoc l = .ok r ↔ l.start < 2 ^ 32 ∧ l.stop < 2 ^ 32 ∧ r = ⟨l.start, l.stop⟩ := by
  obtain ⟨h1, h2, h3, _⟩ := C46_convert l
  unfold checkedFromLoc
  cases e : fromLocSaturating l with
  | mk t o =>
    rw [e] at h1 h2 h3
    cases o with
    | none =>
      have := h3.1 rfl
      simp only [Except.ok.injEq]
      obtain ⟨ts, te⟩ := t
      simp only at h1 h2
      obtain ⟨rs, re⟩ := r
      simp only [TextRange.mk.injEq]
      omega
    | some o =>
      simp only [reduceCtorEq, false_iff, false_iff] at h3 ⊢
      rintro ⟨a, b, _⟩
      exact h3 ⟨a, b⟩

/-- C46.  Ranges convert to locations and back without change. -/
theorem C46_roundtrip (r : TextRange) (h : r.start < 2 ^ 32 ∧ r.stop < 2 ^ 32) :
    TextRange.ofLoc (Loc.ofRange r) = r ∧ checkedFromLoc (Loc.ofRange r) = .ok r := by
  have : checkedFromLoc (Loc.ofRange r) = .ok r := (C46_checked _ r).2 ⟨h.1, h.2, rfl⟩
  refine ⟨?_, this⟩
  obtain ⟨h1, h2, _⟩ := C46_convert (Loc.ofRange r)
  unfold TextRange.ofLoc
  obtain ⟨rs, re⟩ := r
  simp only [Loc.ofRange] at h1 h2 h ⊢
  cases e : (fromLocSaturating ⟨rs, re⟩).1 with
  | mk s t =>
    rw [e] at h1 h2
    simp only at h1 h2
    simp only [TextRange.mk.injEq]; omega

/-- C46.  The length of a range is the number of offsets it contains, and it is empty iff it contains
none. -/
theorem C46_range (r : TextRange) :
    (∀ o, r.contains o = true ↔ r.start ≤ o ∧ o < r.start + r.len) ∧
    (r.isEmpty = true ↔ ∀ o, r.contains o = false) := by
  unfold TextRange.contains TextRange.len TextRange.isEmpty
  refine ⟨fun o => by simp; omega, ?_⟩
  simp only [decide_eq_true_eq, Bool.and_eq_false_iff, decide_eq_false_iff_not]
  constructor
  · intro h o; omega
  · intro h
    have := h r.start
    omega

/-- C46.  The length of a location panics (in a debug build) exactly when the end is before the start;
merging locations that do not have this defect never produces it. -/
theorem C46_len (a b : Loc) :
    (a.len = none ↔ a.stop < a.start) ∧
    (∀ n, a.len = some n → a.start + n = a.stop) ∧
    (a.len.isSome → b.len.isSome → (a.add b).len.isSome) := by
  unfold Loc.len Loc.add
  refine ⟨?_, ?_, ?_⟩
  · split <;> simp <;> omega
  · intro n h; split at h
    · cases h; omega
    · cases h
  · dsimp only
    split
    · split
      · rw [if_pos (by omega)]; simp
      · simp
    · simp

example : (Loc.add ⟨3, 5⟩ ⟨1, 2⟩) = ⟨1, 5⟩ := by decide
example : fromLocSaturating ⟨2 ^ 32, 7⟩ = (⟨2 ^ 32 - 1, 7⟩, some ⟨some (2 ^ 32), none⟩) := by decide
example : checkedFromLoc ⟨4, 10⟩ = .ok ⟨4, 10⟩ := rfl
example : Loc.len ⟨5, 3⟩ = none := by decide

end Verif.Harness
